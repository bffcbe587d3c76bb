/-
C17 (tabulated derivatives are the true partial derivatives) and C18 (`CiarletElement` builds the nodal
basis).
-/
import Verif.Model.PolySet
import Verif.Props.Functional
import Verif.Props.Combinat
import Verif.Lemmas.MvPoly
import Verif.Lemmas.Product
import Mathlib.Algebra.MvPolynomial.PDeriv
import Mathlib.RingTheory.Derivation.Lie
import Mathlib.LinearAlgebra.Matrix.ToLinearEquiv
import Mathlib.Tactic.LinearCombination

namespace FIAT
open MvPolynomial

section derivs
variable {K : Type} [Field K] {D : ℕ}

/-- Specification: the partial derivative with multi-index `α`. -/
noncomputable def iterDeriv (α : List ℕ) (p : MvPolynomial (Fin D) K) : MvPolynomial (Fin D) K :=
  (List.finRange D).foldl (fun q (i : Fin D) => (fun r => pderiv i r)^[α.getD (i : ℕ) 0] q) p

theorem pderiv_comm (i j : Fin D) (p : MvPolynomial (Fin D) K) :
    pderiv i (pderiv j p) = pderiv j (pderiv i p) := by
  have h : (⁅(pderiv i : Derivation K (MvPolynomial (Fin D) K) (MvPolynomial (Fin D) K)),
      (pderiv j : Derivation K (MvPolynomial (Fin D) K) (MvPolynomial (Fin D) K))⁆) = 0 := by
    apply MvPolynomial.derivation_ext
    intro k
    rw [Derivation.commutator_apply]
    simp only [pderiv_X, Derivation.zero_apply]
    have : ∀ a b : Fin D, pderiv a (Pi.single (M := fun _ => MvPolynomial (Fin D) K) b 1 k) = 0 := by
      intro a b
      by_cases hb : k = b
      · subst hb; simp
      · rw [Pi.single_eq_of_ne hb]; simp
    rw [this, this, sub_zero]
  have h2 := congrArg (fun d => d p) h
  simp only [Derivation.commutator_apply, Derivation.zero_apply] at h2
  exact sub_eq_zero.1 h2

/-- The multi-index with no derivative. -/
theorem iterDeriv_zero (p : MvPolynomial (Fin D) K) : iterDeriv (List.replicate D 0) p = p := by
  unfold iterDeriv
  have : ∀ L : List (Fin D), L.foldl (fun q (i : Fin D) => (fun r => pderiv i r)^[(List.replicate D 0).getD (i : ℕ) 0] q) p
      = p := by
    intro L
    induction L with
    | nil => rfl
    | cons a L ih => rw [List.foldl_cons]; simpa [List.getD_eq_getElem?_getD] using ih
  exact this _

private theorem iter_comm (i j : Fin D) (n : ℕ) (p : MvPolynomial (Fin D) K) :
    (fun r => pderiv j r)^[n] (pderiv i p) = pderiv i ((fun r => pderiv j r)^[n] p) := by
  induction n generalizing p with
  | zero => rfl
  | succ n ih => rw [Function.iterate_succ_apply, Function.iterate_succ_apply, pderiv_comm j i, ih]

private theorem foldl_comm (α : List ℕ) (i : Fin D) (L : List (Fin D)) (p : MvPolynomial (Fin D) K) :
    L.foldl (fun q (j : Fin D) => (fun r => pderiv j r)^[α.getD (j : ℕ) 0] q) (pderiv i p) =
      pderiv i (L.foldl (fun q (j : Fin D) => (fun r => pderiv j r)^[α.getD (j : ℕ) 0] q) p) := by
  induction L generalizing p with
  | nil => rfl
  | cons a L ih => rw [List.foldl_cons, List.foldl_cons, iter_comm, ih]

/-- Raising one entry of the multi-index by one differentiates once more in that direction.  Together with
`iterDeriv_zero` this determines `iterDeriv`. -/
theorem iterDeriv_succ (α : List ℕ) (i : Fin D) (h : (i : ℕ) < α.length) (p : MvPolynomial (Fin D) K) :
    iterDeriv (α.set i (α.getD i 0 + 1)) p = pderiv i (iterDeriv α p) := by
  unfold iterDeriv
  have key : ∀ L : List (Fin D), L.Nodup → ∀ p : MvPolynomial (Fin D) K,
      L.foldl (fun q (j : Fin D) => (fun r => pderiv j r)^[(α.set i (α.getD i 0 + 1)).getD (j : ℕ) 0] q) p =
      if i ∈ L then pderiv i (L.foldl (fun q (j : Fin D) => (fun r => pderiv j r)^[α.getD (j : ℕ) 0] q) p)
      else L.foldl (fun q (j : Fin D) => (fun r => pderiv j r)^[α.getD (j : ℕ) 0] q) p := by
    intro L hL
    induction L with
    | nil => intro p; simp
    | cons a L ih =>
      intro p
      obtain ⟨h1, h2⟩ := List.nodup_cons.1 hL
      rw [List.foldl_cons, List.foldl_cons, ih h2]
      by_cases ha : i = a
      · subst ha
        rw [if_neg h1, if_pos (by simp)]
        have e : (α.set i (α.getD i 0 + 1)).getD i 0 = α.getD i 0 + 1 := by
          simp [List.getD_eq_getElem?_getD, h]
        rw [e, Function.iterate_succ_apply', foldl_comm]
      · have e : (α.set i (α.getD i 0 + 1)).getD a 0 = α.getD a 0 := by
          have : (i : ℕ) ≠ a := fun hh => ha (Fin.ext hh)
          simp [List.getD_eq_getElem?_getD, List.getElem?_set_ne this]
        rw [e]
        by_cases hi : i ∈ L
        · rw [if_pos hi, if_pos (by simp [hi])]
        · rw [if_neg hi, if_neg (by simp [hi, ha])]
  rw [key _ (List.nodup_finRange D), if_pos (List.mem_finRange i)]

theorem totalDegree_pderiv_le (i : Fin D) (p : MvPolynomial (Fin D) K) :
    (pderiv i p).totalDegree ≤ p.totalDegree := by
  apply Finset.sup_le
  intro m hm
  rw [mem_support_iff, coeff_pderiv] at hm
  have hm' : m + Finsupp.single i 1 ∈ p.support := by
    rw [mem_support_iff]; exact left_ne_zero_of_mul hm
  refine le_trans ?_ (le_totalDegree hm')
  rw [Finsupp.sum_add_index' (fun _ => rfl) (fun _ _ _ => rfl)]
  exact Nat.le_add_right _ _

theorem iterDeriv_linear {ι : Type*} (T : Finset ι) (a : ι → K) (f : ι → MvPolynomial (Fin D) K) (α : List ℕ) :
    iterDeriv α (∑ t ∈ T, C (a t) * f t) = ∑ t ∈ T, C (a t) * iterDeriv α (f t) := by
  unfold iterDeriv
  have hit : ∀ (i : Fin D) (n : ℕ) (f : ι → MvPolynomial (Fin D) K),
      (fun r => pderiv i r)^[n] (∑ t ∈ T, C (a t) * f t) =
      ∑ t ∈ T, C (a t) * (fun r => pderiv i r)^[n] (f t) := by
    intro i n
    induction n with
    | zero => intro f; rfl
    | succ n ih =>
      intro f
      simp only [Function.iterate_succ_apply]
      rw [map_sum]
      simp only [pderiv_C_mul]
      exact ih _
  generalize List.finRange D = L
  induction L generalizing f with
  | nil => rfl
  | cons i L ih => simp only [List.foldl_cons, hit]; exact ih _

end derivs

section tabulate
variable {K : Type} [Field K] {D N : ℕ}

/-- Specification of derivative matrices: column `k` of matrix `i` holds the coefficients of the
derivative of `phi k` in direction `i`. -/
def DmatSpec (phi : Fin N → MvPolynomial (Fin D) K) (mats : List (Matrix (Fin N) (Fin N) K)) : Prop :=
  mats.length = D ∧ ∀ (i : Fin D) M, mats[(i : ℕ)]? = some M → ∀ k, ∑ j, C (M j k) * phi j = pderiv i (phi k)

/-- Specification of `expansion_set.tabulate`. -/
def BaseSpec (phi : Fin N → MvPolynomial (Fin D) K) (base : List (Fin D → K) → ℕ → ℕ → K) : Prop :=
  ∀ (pts : List (Fin D → K)) (i : Fin N) (j : ℕ) (x : Fin D → K), pts[j]? = some x →
    base pts i j = eval x (phi i)

/-- Specification of `expansion_set.tabulate_derivatives`. -/
def DvSpec (phi : Fin N → MvPolynomial (Fin D) K) (dv : List (Fin D → K) → ℕ → ℕ → Fin D → K) : Prop :=
  ∀ (pts : List (Fin D → K)) (k : Fin N) (j : ℕ) (x : Fin D → K) (i : Fin D), pts[j]? = some x →
    dv pts k j i = eval x (pderiv i (phi k))

/-- Specification: no nonzero polynomial of degree at most `n` vanishes at all the points. -/
def Unisolvent (n : ℕ) (pts : List (Fin D → K)) : Prop :=
  ∀ p : MvPolynomial (Fin D) K, p.totalDegree ≤ n → (∀ x ∈ pts, eval x p = 0) → p = 0

private theorem totalDegree_comb (n : ℕ) (phi : Fin N → MvPolynomial (Fin D) K)
    (hdeg : ∀ i, (phi i).totalDegree ≤ n) (a : Fin N → K) :
    (∑ j, C (a j) * phi j).totalDegree ≤ n := by
  refine (totalDegree_finsetSum _ _).trans (Finset.sup_le fun j _ => ?_)
  refine (totalDegree_mul _ _).trans ?_
  rw [totalDegree_C, zero_add]; exact hdeg j

/-- The collocation matrix at unisolvent points is invertible. -/
theorem collocation_isUnit (n : ℕ) (phi : Fin N → MvPolynomial (Fin D) K)
    (hdeg : ∀ i, (phi i).totalDegree ≤ n) (hli : LinearIndependent K phi)
    (pts : List (Fin D → K)) (hlen : pts.length = N) (huni : Unisolvent n pts)
    (v : Matrix (Fin N) (Fin N) K) (hv : ∀ p i, v p i = eval (pts.get (p.cast hlen.symm)) (phi i)) :
    IsUnit v.det := by
  rw [isUnit_iff_ne_zero]
  intro h0
  obtain ⟨c, hc, hvc⟩ := Matrix.exists_mulVec_eq_zero_iff.2 h0
  apply hc
  have hz : ∑ j, C (c j) * phi j = 0 := by
    apply huni _ (totalDegree_comb n phi hdeg c)
    intro x hx
    obtain ⟨i, hi, rfl⟩ := List.mem_iff_getElem.1 hx
    have := congrFun hvc ⟨i, by omega⟩
    simp only [Matrix.mulVec, dotProduct, hv, Pi.zero_apply] at this
    rw [map_sum]
    simp only [map_mul, eval_C]
    rw [← this]
    refine Finset.sum_congr rfl fun j _ => mul_comm _ _
  have := Fintype.linearIndependent_iff.1 hli c (by simpa only [← smul_eq_C_mul] using hz)
  funext i; exact this i

/-- C17: the collocation procedure produces the true derivative matrices. -/
theorem on_dmats_spec (n : ℕ) (phi : Fin N → MvPolynomial (Fin D) K)
    (hdeg : ∀ i, (phi i).totalDegree ≤ n) (hli : LinearIndependent K phi)
    (pts : List (Fin D → K)) (hlen : pts.length = N) (huni : Unisolvent n pts)
    (base : List (Fin D → K) → ℕ → ℕ → K) (hbase : BaseSpec phi base)
    (dv : List (Fin D → K) → ℕ → ℕ → Fin D → K) (hdv : DvSpec phi dv) :
    ∃ mats, onDmats N D n pts base dv = some mats ∧ DmatSpec phi mats := by
  unfold onDmats
  by_cases hn : n = 0
  · refine ⟨List.replicate D 0, if_pos hn, by simp, ?_⟩
    intro i M hM k
    rw [List.getElem?_replicate, if_pos i.2, Option.some.injEq] at hM
    subst hM
    have : phi k = C (coeff 0 (phi k)) := by
      apply totalDegree_eq_zero_iff_eq_C.1
      have := hdeg k; omega
    rw [this]; simp
  · rw [if_neg hn, if_pos hlen]
    simp only
    set v : Matrix (Fin N) (Fin N) K := Matrix.of fun p i => base pts i p with hvdef
    have hget : ∀ p : Fin N, pts[(p : ℕ)]? = some (pts.get (p.cast hlen.symm)) := fun p => by
      rw [List.getElem?_eq_getElem (by omega)]; rfl
    have hv : ∀ p i, v p i = eval (pts.get (p.cast hlen.symm)) (phi i) := fun p i =>
      hbase pts i p _ (hget p)
    have hu := collocation_isUnit n phi hdeg hli pts hlen huni v hv
    refine ⟨_, if_pos hu, by simp, ?_⟩
    intro i M hM k
    rw [List.getElem?_map, List.getElem?_eq_getElem (by simp), List.getElem_finRange,
      Option.map_some, Option.some.injEq] at hM
    simp only [Fin.cast_mk, Fin.eta] at hM
    subst hM
    set T : Matrix (Fin N) (Fin N) K := (Matrix.of fun (k p : Fin N) => dv pts k p i).transpose with hT
    have hM : v * (v⁻¹ * T) = T := by rw [← Matrix.mul_assoc, Matrix.mul_nonsing_inv _ hu, Matrix.one_mul]
    set M := v⁻¹ * T
    apply sub_eq_zero.1
    apply huni
    · refine (totalDegree_sub _ _).trans (max_le (totalDegree_comb n phi hdeg _) ?_)
      exact (totalDegree_pderiv_le i _).trans (hdeg k)
    · intro x hx
      obtain ⟨p, hp, rfl⟩ := List.mem_iff_getElem.1 hx
      have h1 := congrFun (congrFun hM ⟨p, by omega⟩) k
      rw [Matrix.mul_apply] at h1
      have h2 : T ⟨p, by omega⟩ k = eval pts[p] (pderiv i (phi k)) := by
        rw [hT, Matrix.transpose_apply, Matrix.of_apply]
        exact hdv pts k p _ i (List.getElem?_eq_getElem hp)
      rw [h2] at h1
      rw [map_sub, ← h1, map_sum, sub_eq_zero]
      refine Finset.sum_congr rfl fun j _ => ?_
      rw [map_mul, eval_C, hv, mul_comm]; rfl

/-- The combination of the expansion functions with the entries of a column. -/
private noncomputable def col (phi : Fin N → MvPolynomial (Fin D) K) (R : Matrix (Fin N) (Fin N) K) (k : Fin N) :
    MvPolynomial (Fin D) K := ∑ j, C (R j k) * phi j

private theorem col_mul (phi : Fin N → MvPolynomial (Fin D) K) (M R : Matrix (Fin N) (Fin N) K) (i : Fin D)
    (hM : ∀ k, ∑ j, C (M j k) * phi j = pderiv i (phi k)) (k : Fin N) :
    col phi (M * R) k = pderiv i (col phi R k) := by
  unfold col
  rw [map_sum]
  simp only [pderiv_C_mul, ← hM, Matrix.mul_apply, map_sum, Finset.mul_sum, Finset.sum_mul, map_mul]
  rw [Finset.sum_comm]
  refine Finset.sum_congr rfl fun l _ => Finset.sum_congr rfl fun j _ => ?_
  ring

private theorem inner_prod (phi : Fin N → MvPolynomial (Fin D) K) (mats : List (Matrix (Fin N) (Fin N) K))
    (hm : DmatSpec phi mats) (i : Fin D) (a : ℕ) (R : Matrix (Fin N) (Fin N) K) :
    ∃ R', (List.range a).foldlM (fun result _ => (mats[(i : ℕ)]?).map fun m => m * result) R = some R' ∧
      ∀ k, col phi R' k = (fun r => pderiv i r)^[a] (col phi R k) := by
  obtain ⟨M, hM⟩ : ∃ M, mats[(i : ℕ)]? = some M := by
    rw [List.getElem?_eq_getElem (by rw [hm.1]; exact i.2)]; exact ⟨_, rfl⟩
  induction a with
  | zero => exact ⟨R, rfl, fun k => rfl⟩
  | succ a ih =>
    obtain ⟨R', h1, h2⟩ := ih
    refine ⟨M * R', ?_, fun k => ?_⟩
    · rw [List.range_succ, List.foldlM_append, h1]
      simp [hM]
    · rw [col_mul phi M R' i (hm.2 i M hM), h2, Function.iterate_succ_apply']

/-- C17: `form_matrix_product` of true derivative matrices represents the derivative with multi-index
`alpha`. -/
theorem form_matrix_product_spec (hD : 1 ≤ D) (phi : Fin N → MvPolynomial (Fin D) K)
    (mats : List (Matrix (Fin N) (Fin N) K)) (hm : DmatSpec phi mats) (α : List ℕ) (hα : α.length = D) :
    ∃ R, formMatrixProduct mats α = some R ∧
      ∀ k, ∑ j, C (R j k) * phi j = iterDeriv α (phi k) := by
  unfold formMatrixProduct
  rw [if_neg (by rw [List.isEmpty_iff]; intro h; have := hm.1; rw [h] at this; simp at this; omega)]
  have hz : α.zipIdx = (List.finRange D).map fun (i : Fin D) => (α.getD (i : ℕ) 0, (i : ℕ)) := by
    apply List.ext_getElem
    · simp [hα]
    · intro n h1 h2
      have : n < α.length := by simpa using h1
      simp [List.getD_eq_getElem?_getD, List.getElem?_eq_getElem this]
  have key : ∀ (L : List (Fin D)) (R : Matrix (Fin N) (Fin N) K),
      ∃ R', (L.map fun (i : Fin D) => (α.getD (i : ℕ) 0, (i : ℕ))).foldlM (fun result (ai : ℕ × ℕ) =>
        (List.range ai.1).foldlM (fun result _ => (mats[ai.2]?).map fun m => m * result) result) R = some R' ∧
      ∀ k, col phi R' k = L.foldl (fun q (i : Fin D) => (fun r => pderiv i r)^[α.getD (i : ℕ) 0] q) (col phi R k) := by
    intro L
    induction L with
    | nil => intro R; exact ⟨R, rfl, fun k => rfl⟩
    | cons i L ih =>
      intro R
      obtain ⟨R1, h1, h2⟩ := inner_prod phi mats hm i (α.getD i 0) R
      obtain ⟨R2, h3, h4⟩ := ih R1
      refine ⟨R2, ?_, fun k => ?_⟩
      · rw [List.map_cons, List.foldlM_cons]
        simp only [h1, Option.bind_eq_bind, Option.bind_some]
        exact h3
      · rw [h4, h2]; rfl
  obtain ⟨R, h1, h2⟩ := key (List.finRange D) 1
  refine ⟨R, by rw [hz]; exact h1, fun k => ?_⟩
  have h3 := h2 k
  have hone : col phi 1 k = phi k := by
    unfold col
    rw [Finset.sum_eq_single k]
    · simp
    · intro j _ hj; simp [Matrix.one_apply_ne hj]
    · simp
  rw [hone] at h3
  exact h3

/-- The member `i`, component `c`, of a polynomial set. -/
noncomputable def PolySet.member {m : ℕ} {Cp : Type} (phi : Fin N → MvPolynomial (Fin D) K)
    (S : PolySet K (Fin D → K) N m Cp) (i : Fin m) (c : Cp) : MvPolynomial (Fin D) K :=
  ∑ k, C (S.coeffs i c k) * phi k

/-- C17: `tabulate(pts, order)` has exactly one table per multi-index of order at most `order`, and it
holds the values of that partial derivative of every component of every member at every point. -/
theorem tabulate_spec (hD : 1 ≤ D) {m : ℕ} {Cp : Type} (phi : Fin N → MvPolynomial (Fin D) K)
    (S : PolySet K (Fin D → K) N m Cp) (hsd : S.sd = D) (hbase : BaseSpec phi S.base)
    (hm : DmatSpec phi S.dmats) (pts : List (Fin D → K)) (order : ℕ) :
    ∃ res, S.tabulate pts order = some res ∧ Dict.WF res ∧
      (∀ α, α ∈ Dict.keys res ↔ α.length = D ∧ α.sum ≤ order) ∧
      ∀ α T, Dict.get? res α = some T → ∀ i c j x, pts[j]? = some x →
        T i c j = eval x (iterDeriv α (S.member phi i c)) := by
  have hne : ¬ S.dmats.isEmpty := by
    rw [List.isEmpty_iff]; intro h; have := hm.1; rw [h] at this; simp at this; omega
  choose! R hR1 hR2 using fun α (hα : α.length = D) => form_matrix_product_spec hD phi S.dmats hm α hα
  have hfold : S.tabulate pts order = some ((jetKeys S.sd order).foldl (fun result alpha =>
      Dict.put result alpha (fun i c p =>
        ∑ k, S.coeffs i c k * ∑ j, (R alpha).transpose k j * S.base pts j p)) []) := by
    unfold PolySet.tabulate
    apply foldlM_some
    intro α hα s
    rw [hsd, jetKeys_mem _ _ hD] at hα
    rw [if_neg hne, hR1 α hα.1]
    rfl
  rw [foldl_put_eq_map _ _ _ (by rw [hsd]; exact jetKeys_nodup D order hD) (by simp [Dict.keys]),
    List.nil_append] at hfold
  have hkeys : Dict.keys ((jetKeys S.sd order).map fun alpha => (alpha, (fun (i : Fin m) (c : Cp) (p : ℕ) =>
        ∑ k, S.coeffs i c k * ∑ j, (R alpha).transpose k j * S.base pts j p))) = jetKeys S.sd order := by
    rw [Dict.keys, List.map_map]; exact List.map_id _
  refine ⟨_, hfold, ?_, ?_, ?_⟩
  · rw [Dict.WF, hkeys, hsd]; exact jetKeys_nodup D order hD
  · intro α; rw [hkeys, hsd, jetKeys_mem _ _ hD]
  · intro α T hT i c j x hx
    have hmem := Dict.mem_of_get? hT
    obtain ⟨β, hβ, he⟩ := List.mem_map.1 hmem
    rw [Prod.mk.injEq] at he
    obtain ⟨rfl, rfl⟩ := he
    rw [hsd, jetKeys_mem _ _ hD] at hβ
    unfold PolySet.member
    rw [iterDeriv_linear, map_sum]
    refine Finset.sum_congr rfl fun k _ => ?_
    rw [map_mul, eval_C, ← hR2 β hβ.1 k, map_sum]
    congr 1
    refine Finset.sum_congr rfl fun l _ => ?_
    rw [map_mul, eval_C, Matrix.transpose_apply, hbase pts l j x hx]

end tabulate
end FIAT
