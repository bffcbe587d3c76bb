/-
Stores, loops and homogenised Jacobi polynomials for the expansion sets.
-/
import Verif.Model.Expansions
import Verif.Props.Jacobi
import Verif.Lemmas.JacobiInt
import Verif.Lemmas.Functional
import Verif.Lemmas.SimplexInt
import Mathlib.Algebra.MvPolynomial.Degrees

namespace FIAT

section store
variable {A ι : Type} [CommRing A]

/-- Every index in `S` holds its value. -/
def Slots.Holds (ix : ι → ℕ) (r : Slots A) (S : ι → Prop) (v : ι → A) : Prop := ∀ i, S i → r.rd (ix i) = some (v i)

theorem Slots.Holds.mono {ix : ι → ℕ} {r : Slots A} {S S' : ι → Prop} {v : ι → A} (h : r.Holds ix S v)
    (hs : ∀ i, S' i → S i) : r.Holds ix S' v := fun i hi => h i (hs i hi)

theorem Slots.Holds.congr {ix : ι → ℕ} {r : Slots A} {S : ι → Prop} {v v' : ι → A} (h : r.Holds ix S v)
    (hs : ∀ i, S i → v i = v' i) : r.Holds ix S v' := fun i hi => by rw [h i hi, hs i hi]

open Classical in
theorem Slots.Holds.wr_upd {ix : ι → ℕ} (hix : Function.Injective ix) {r : Slots A} {S : ι → Prop} {v : ι → A}
    (h : r.Holds ix S v) (i : ι) (hi : ix i < r.length) (w : A) :
    ∃ r', r.wr (ix i) w = some r' ∧ r'.length = r.length ∧
      r'.Holds ix (fun j => S j ∨ j = i) (Function.update v i w) := by
  refine ⟨r.set (ix i) (some w), by rw [Slots.wr, if_pos hi], by simp, ?_⟩
  intro j hj
  unfold Slots.rd
  by_cases hji : j = i
  · subst hji
    rw [List.getElem?_set_self hi, Function.update_self]; rfl
  · rw [Function.update_of_ne hji, List.getElem?_set_ne (fun hh => hji (hix hh).symm)]
    exact h j (hj.resolve_right hji)

theorem Slots.Holds.wr {ix : ι → ℕ} (hix : Function.Injective ix) {r : Slots A} {S S' : ι → Prop} {v : ι → A}
    (h : r.Holds ix S v) (i : ι) (hi : ix i < r.length) (w : A) (hw : w = v i) (hS : ∀ j, S' j → S j ∨ j = i) :
    ∃ r', r.wr (ix i) w = some r' ∧ r'.length = r.length ∧ r'.Holds ix S' v := by
  classical
  obtain ⟨r', h1, h2, h3⟩ := h.wr_upd hix i hi w
  refine ⟨r', h1, h2, ?_⟩
  rw [hw, Function.update_eq_self] at h3
  exact h3.mono hS

theorem foldlM_range'_inv {σ : Type} (I : ℕ → σ → Prop) (f : σ → ℕ → Option σ) (a n : ℕ) (s : σ) (h0 : I a s)
    (hs : ∀ k s, a ≤ k → k < a + n → I k s → ∃ s', f s k = some s' ∧ I (k + 1) s') :
    ∃ s', (List.range' a n).foldlM f s = some s' ∧ I (a + n) s' := by
  induction n generalizing a s with
  | zero => exact ⟨s, rfl, h0⟩
  | succ n ih =>
    obtain ⟨s1, h1, h2⟩ := hs a s le_rfl (by omega) h0
    obtain ⟨s2, h3, h4⟩ := ih (a + 1) s1 h2 fun k s hk1 hk2 hI => hs k s (by omega) (by omega) hI
    refine ⟨s2, ?_, by rwa [show a + (n + 1) = a + 1 + n by ring]⟩
    rw [List.range'_succ, List.foldlM_cons, h1]
    exact h3

theorem foldlM_range_inv {σ : Type} (I : ℕ → σ → Prop) (f : σ → ℕ → Option σ) (n : ℕ) (s : σ) (h0 : I 0 s)
    (hs : ∀ k s, k < n → I k s → ∃ s', f s k = some s' ∧ I (k + 1) s') :
    ∃ s', (List.range n).foldlM f s = some s' ∧ I n s' := by
  rw [List.range_eq_range']
  obtain ⟨s', h1, h2⟩ := foldlM_range'_inv I f 0 n s h0 fun k s _ hk hI => hs k s (by omega) hI
  exact ⟨s', h1, by simpa using h2⟩

open Classical in
/-- Scaling the entries in a list of indices without repetition. -/
theorem Slots.Holds.scale {ix : ι → ℕ} (hix : Function.Injective ix) {S : ι → Prop} (s : ι → A) (L : List ι) (hL : L.Nodup)
    {r : Slots A} {v : ι → A} (h : r.Holds ix S v) (hS : ∀ i ∈ L, S i) (hr : ∀ i, S i → ix i < r.length) :
    ∃ r', L.foldlM (fun (r : Slots A) i => (r.rd (ix i)).bind fun u => r.wr (ix i) (u * s i)) r = some r' ∧
      r'.length = r.length ∧ r'.Holds ix S (fun i => if i ∈ L then v i * s i else v i) := by
  induction L generalizing r v with
  | nil => exact ⟨r, rfl, rfl, by simpa using h⟩
  | cons a L ih =>
    have ha := List.nodup_cons.1 hL
    obtain ⟨r1, h1, h2, h3⟩ := h.wr_upd hix a (hr a (hS a (by simp))) (v a * s a)
    obtain ⟨r2, h4, h5, h6⟩ := ih ha.2 (h3.mono (S' := S) (fun i hi => Or.inl hi))
      (fun i hi => hS i (by simp [hi])) (fun i hi => by rw [h2]; exact hr i hi)
    refine ⟨r2, ?_, h5.trans h2, h6.congr fun i hi => ?_⟩
    · rw [List.foldlM_cons, h a (hS a (by simp)), Option.bind_some, h1]
      exact h4
    · by_cases hia : i = a
      · subst hia
        rw [if_neg ha.1, Function.update_self, if_pos (by simp)]
      · rw [Function.update_of_ne hia]
        simp [hia]

end store

section hjac
variable {A : Type} [CommRing A] [Algebra ℝ A]

local notation "↟" c => algebraMap ℝ A c

/-- The Jacobi polynomial `P_n^(a,0)` made homogeneous: `T^n P_n(X/T)`. -/
noncomputable def hJac (a : ℝ) (X T : A) : ℕ → A
  | 0 => 1
  | 1 => (↟ (1 / 2)) * ((↟ (a + 2)) * X + (↟ a) * T)
  | n + 2 => ((↟ (jrc a 0 (n + 1 : ℕ)).1) * X + (↟ (jrc a 0 (n + 1 : ℕ)).2.1) * T) * hJac a X T (n + 1) -
      (↟ (jrc a 0 (n + 1 : ℕ)).2.2) * T ^ 2 * hJac a X T n

theorem hJac_smul (a : ℝ) (c X T : A) (n : ℕ) : hJac a (c * X) (c * T) n = c ^ n * hJac a X T n := by
  induction n using Nat.twoStepInduction with
  | zero => simp [hJac]
  | one => simp only [hJac]; ring
  | more n h1 h2 => simp only [hJac, h1, h2]; ring

theorem hJac_map {B : Type} [CommRing B] [Algebra ℝ B] (f : A →ₐ[ℝ] B) (a : ℝ) (X T : A) (n : ℕ) :
    f (hJac a X T n) = hJac a (f X) (f T) n := by
  induction n using Nat.twoStepInduction with
  | zero => simp [hJac]
  | one => simp only [hJac, map_mul, map_add, AlgHom.commutes]
  | more n h1 h2 => simp only [hJac, map_mul, map_add, map_sub, map_pow, AlgHom.commutes, h1, h2]

open Polynomial in
theorem hJac_one (a : ℝ) (ha : 0 ≤ a) (x : A) (n : ℕ) : hJac a x 1 n = aeval x (jacobiPoly a 0 n) := by
  induction n using Nat.twoStepInduction with
  | zero => simp [hJac, jacobiPoly_zero]
  | one =>
    rw [jacobiPoly_one]
    simp only [hJac, map_mul, map_add, aeval_C, aeval_X, mul_one, sub_zero, add_zero]
    ring
  | more n h1 h2 =>
    have h := congrArg (aeval x) (jacobiPoly_rec a 0 n)
    simp only [map_mul, map_add, map_sub, aeval_C, aeval_X] at h
    simp only [hJac, h1, h2]
    have hn : (0 : ℝ) ≤ n := Nat.cast_nonneg n
    have hr : rA1 a 0 ((n + 2 : ℕ) : ℝ) ≠ 0 := by
      unfold rA1
      have e1 : 2 * ((n + 2 : ℕ) : ℝ) * (((n + 2 : ℕ) : ℝ) + (a + 0)) * (2 * ((n + 2 : ℕ) : ℝ) + (a + 0) - 2) =
        2 * (n + 2) * (n + 2 + a) * (2 * n + 2 + a) := by push_cast; ring
      rw [e1]; positivity
    have hu : (↟ (rA1 a 0 ((n + 2 : ℕ) : ℝ))) * (↟ (rA1 a 0 ((n + 2 : ℕ) : ℝ))⁻¹) = 1 := by
      rw [← map_mul, mul_inv_cancel₀ hr, map_one]
    have c1 : (jrc a 0 (n + 1 : ℕ)).1 = (rA1 a 0 ((n + 2 : ℕ) : ℝ))⁻¹ * rA3 a 0 ((n + 2 : ℕ) : ℝ) := by
      rw [← div_eq_inv_mul, eq_div_iff hr]
      unfold jrc rA1 rA3
      push_cast
      have h3 : (n : ℝ) + 1 + 1 + a + 0 ≠ 0 := by positivity
      field_simp
      ring
    have c2 : (jrc a 0 (n + 1 : ℕ)).2.1 = (rA1 a 0 ((n + 2 : ℕ) : ℝ))⁻¹ * rA2 a 0 ((n + 2 : ℕ) : ℝ) := by
      rw [← div_eq_inv_mul, eq_div_iff hr]
      unfold jrc rA1 rA2
      push_cast
      have h3 : (n : ℝ) + 1 + 1 + a + 0 ≠ 0 := by positivity
      have h4 : 2 * ((n : ℝ) + 1) + a + 0 ≠ 0 := by positivity
      field_simp
      ring
    have c3 : (jrc a 0 (n + 1 : ℕ)).2.2 = (rA1 a 0 ((n + 2 : ℕ) : ℝ))⁻¹ * rA4 a 0 ((n + 2 : ℕ) : ℝ) := by
      rw [← div_eq_inv_mul, eq_div_iff hr]
      unfold jrc rA1 rA4
      push_cast
      have h3 : (n : ℝ) + 1 + 1 + a + 0 ≠ 0 := by positivity
      have h4 : 2 * ((n : ℝ) + 1) + a + 0 ≠ 0 := by positivity
      field_simp
      ring
    rw [c1, c2, c3]
    simp only [map_mul]
    linear_combination (aeval x (jacobiPoly a 0 (n + 2))) * hu - (↟ (rA1 a 0 ((n + 2 : ℕ) : ℝ))⁻¹) * h

open MvPolynomial in
theorem hJac_degree {σ : Type} (a : ℝ) (X T : MvPolynomial σ ℝ) (hX : X.totalDegree ≤ 1) (hT : T.totalDegree ≤ 1)
    (n : ℕ) : (hJac a X T n).totalDegree ≤ n := by
  have hlin : ∀ c e : ℝ, (algebraMap ℝ (MvPolynomial σ ℝ) c * X + algebraMap ℝ (MvPolynomial σ ℝ) e * T).totalDegree ≤ 1 := by
    intro c e
    refine (totalDegree_add _ _).trans (max_le ?_ ?_)
    · refine (totalDegree_mul _ _).trans ?_
      rw [algebraMap_eq, totalDegree_C]; omega
    · refine (totalDegree_mul _ _).trans ?_
      rw [algebraMap_eq, totalDegree_C]; omega
  induction n using Nat.twoStepInduction with
  | zero => simp [hJac]
  | one =>
    simp only [hJac]
    refine (totalDegree_mul _ _).trans ?_
    have := hlin (a + 2) a
    rw [algebraMap_eq] at this ⊢
    rw [totalDegree_C]; omega
  | more n h1 h2 =>
    simp only [hJac]
    refine (totalDegree_sub _ _).trans (max_le ?_ ?_)
    · refine (totalDegree_mul _ _).trans ?_
      have := hlin (jrc a 0 (n + 1 : ℕ)).1 (jrc a 0 (n + 1 : ℕ)).2.1
      omega
    · refine (totalDegree_mul _ _).trans ?_
      have h3 := totalDegree_mul (algebraMap ℝ (MvPolynomial σ ℝ) (jrc a 0 (n + 1 : ℕ)).2.2) (T ^ 2)
      have h4 := totalDegree_pow T 2
      rw [algebraMap_eq, totalDegree_C] at h3
      rw [algebraMap_eq]
      omega

end hjac

section orth
open MeasureTheory Polynomial

theorem orth_succ {ι : Type} [DecidableEq ι] (d : ℕ) (φ : ι → (Fin d → ℝ) → ℝ) (deg : ι → ℕ) (c : ι → ℝ)
    (hφ : ∀ i j, ∫ x in refSimplex d, φ i x * φ j x = if i = j then c i else 0)
    (ψ : ι × ℕ → (Fin (d + 1) → ℝ) → ℝ) (hc : ∀ α, Continuous (ψ α))
    (hψ : ∀ i r x z, ψ (i, r) (Fin.snoc (fun l => (1 - z) / 2 * (x l + 1) - 1) z) =
      φ i x * ((1 - z) / 2) ^ deg i * (jacobiPoly (2 * deg i + d : ℝ) 0 r).eval z) (α β : ι × ℕ) :
    ∫ x in refSimplex (d + 1), ψ α x * ψ β x =
      if α = β then c α.1 * (2 / (2 * α.2 + (2 * deg α.1 + d) + 1)) else 0 := by
  obtain ⟨i, r⟩ := α
  obtain ⟨j, s⟩ := β
  rw [integral_refSimplex_succ d (fun x => ψ (i, r) x * ψ (j, s) x) ((hc _).mul (hc _))]
  have e1 : ∀ z : ℝ, ((1 - z) / 2) ^ d * ∫ x in refSimplex d,
      ψ (i, r) (Fin.snoc (fun l => (1 - z) / 2 * (x l + 1) - 1) z) *
      ψ (j, s) (Fin.snoc (fun l => (1 - z) / 2 * (x l + 1) - 1) z) =
      ((1 - z) / 2) ^ d * ((((1 - z) / 2) ^ deg i * (jacobiPoly (2 * deg i + d : ℝ) 0 r).eval z *
        (((1 - z) / 2) ^ deg j * (jacobiPoly (2 * deg j + d : ℝ) 0 s).eval z)) * if i = j then c i else 0) := by
    intro z
    congr 1
    rw [← hφ, ← integral_const_mul]
    refine integral_congr_ae (Filter.Eventually.of_forall fun x => ?_)
    simp only [hψ]; ring
  simp only [e1]
  by_cases hij : i = j
  · subst hij
    simp only [if_true]
    have e2 : ∀ z : ℝ, ((1 - z) / 2) ^ d * ((((1 - z) / 2) ^ deg i * (jacobiPoly (2 * deg i + d : ℝ) 0 r).eval z *
        (((1 - z) / 2) ^ deg i * (jacobiPoly (2 * deg i + d : ℝ) 0 s).eval z)) * c i) =
        (c i * (1 / 2) ^ (2 * deg i + d)) *
          (jw (2 * deg i + d) 0 * jacobiPoly ((2 * deg i + d : ℕ) : ℝ) ((0 : ℕ) : ℝ) r *
            jacobiPoly ((2 * deg i + d : ℕ) : ℝ) ((0 : ℕ) : ℝ) s).eval z := by
      intro z
      simp only [eval_mul, jw_eval, pow_zero, mul_one]
      push_cast
      rw [show (1 - z) / 2 = (1 / 2) * (1 - z) by ring]
      rw [two_mul (deg i)]
      simp only [mul_pow, pow_add]
      ring
    simp only [e2]
    rw [intervalIntegral.integral_const_mul]
    change _ * pint _ = _
    by_cases hrs : r = s
    · subst hrs
      rw [pint_norm, if_pos rfl]
      unfold jacobiNorm
      rw [pow_succ]
      have h1 : ((2 * deg i + d + r).factorial : ℝ) ≠ 0 := Nat.cast_ne_zero.2 (Nat.factorial_ne_zero _)
      have h2 : (r.factorial : ℝ) ≠ 0 := Nat.cast_ne_zero.2 (Nat.factorial_ne_zero _)
      have h4 : 2 * (r : ℝ) + (2 * deg i + d) + 1 ≠ 0 := by positivity
      have h5 : 2 * (r : ℝ) + ((2 * deg i + d : ℕ) : ℝ) + ((0 : ℕ) : ℝ) + 1 ≠ 0 := by positivity
      have h6 : (1 / 2 : ℝ) ^ (2 * deg i + d) * 2 ^ (2 * deg i + d) = 1 := by rw [← mul_pow]; norm_num
      rw [zero_add, show 2 * deg i + d + 0 + r = 2 * deg i + d + r by ring]
      push_cast at h5 ⊢
      field_simp
      linear_combination c i * (2 * (r : ℝ) + (2 * deg i + d) + 1) * h6
    · rw [if_neg (by simp [hrs])]
      have hdeg : ∀ m : ℕ, (jacobiPoly ((2 * deg i + d : ℕ) : ℝ) ((0 : ℕ) : ℝ) m).degree ≤ m := fun m =>
        degree_le_of_natDegree_le (jacobiPoly_lead _ _ m).2
      rcases lt_or_gt_of_ne hrs with h | h
      · rw [mul_right_comm (jw _ _), pint_orthogonal, mul_zero]
        exact (hdeg r).trans_lt (by exact_mod_cast h)
      · rw [pint_orthogonal, mul_zero]
        exact (hdeg s).trans_lt (by exact_mod_cast h)
  · rw [if_neg (by simp [hij])]
    simp [hij]

end orth
end FIAT
