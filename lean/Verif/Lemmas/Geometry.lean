/- Helper lemmas for `Verif.Props.Geometry`. -/
import Verif.Model.Geometry
import Verif.Props.Combinat
import Mathlib.LinearAlgebra.AffineSpace.Independent
import Mathlib.Tactic.FieldSimp
import Mathlib.Tactic.NoncommRing

namespace FIAT

section combo
variable {K V : Type*} [DivisionRing K] [AddCommGroup V] [Module K V]

/-- Linear combination of two lists. -/
def combo (cs : List K) (vs : List V) : V := (List.zipWith (· • ·) cs vs).sum

@[simp] theorem combo_nil_left (vs : List V) : combo ([] : List K) vs = 0 := by simp [combo]
@[simp] theorem combo_nil_right (cs : List K) : combo cs ([] : List V) = 0 := by simp [combo]
@[simp] theorem combo_cons (c : K) (cs : List K) (v : V) (vs : List V) :
    combo (c :: cs) (v :: vs) = c • v + combo cs vs := by simp [combo]

theorem natCombo_cons (i : ℕ) (is : List ℕ) (v : V) (vs : List V) :
    natCombo K (i :: is) (v :: vs) = (i : K) • v + natCombo K is vs := by simp [natCombo]

theorem natCombo_eq_combo (idx : List ℕ) (hs : List V) :
    natCombo K idx hs = combo (idx.map fun i : ℕ => (i : K)) hs := by
  rw [natCombo, combo, List.zipWith_map_left]

theorem combo_edges (cs : List K) (vs : List V) (v0 : V) (a : K) (h : cs.length = vs.length) :
    combo (cs.map fun i => i) (vs.map fun v => a • (v - v0)) =
      combo (cs.map fun i => i * a) vs - (cs.map fun i => i * a).sum • v0 := by
  induction cs generalizing vs with
  | nil => simp
  | cons c cs ih =>
    cases vs with
    | nil => simp at h
    | cons v vs =>
      simp only [List.map_cons, combo_cons, List.sum_cons]
      rw [ih vs (by simpa using h), smul_smul, smul_sub, add_smul]
      abel

end combo
end FIAT
