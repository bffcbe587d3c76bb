/-
The span computed by `polynomial_set_union_normalized` from a singular value decomposition.
-/
import Verif.Model.VectorElements
import Mathlib.LinearAlgebra.FiniteDimensional.Basic
import Mathlib.LinearAlgebra.Dimension.Constructions
import Mathlib.Algebra.BigOperators.Field
import Mathlib.Data.List.GetD

namespace FIAT
section
variable {D N : ℕ}

/-- Contract of `numpy.linalg.svd(A)`: singular values `r.1` (non-negative, decreasing, `min` of the dimensions many) and the
rows `r.2` of `vt` (an orthonormal basis), with `A = u diag(sigma) vt` for some `u` with orthonormal columns (only the columns
that belong to nonzero singular values matter). -/
structure IsSVD (A : List (Fin D → Fin N → ℝ)) (r : List ℝ × List (Fin D → Fin N → ℝ)) : Prop where
  nonneg : ∀ s ∈ r.1, 0 ≤ s
  sorted : r.1.Pairwise (· ≥ ·)
  length : r.1.length = min A.length (D * N)
  rows : r.2.length = D * N
  ortho : ∀ i j, i < D * N → j < D * N → ∑ c, ∑ l, r.2.getD i 0 c l * r.2.getD j 0 c l = if i = j then 1 else 0
  factor : ∃ u : ℕ → ℕ → ℝ,
    (∀ a < A.length, A.getD a 0 = ∑ i ∈ Finset.range r.1.length, (u a i * r.1.getD i 0) • r.2.getD i 0) ∧
    ∀ i j, i < r.1.length → j < r.1.length → r.1.getD i 0 ≠ 0 → r.1.getD j 0 ≠ 0 →
      ∑ a ∈ Finset.range A.length, u a i * u a j = if i = j then 1 else 0

/-- The number of singular values above the threshold is a prefix. -/
theorem filter_prefix (σ : List ℝ) (ε : ℝ) (hs : σ.Pairwise (· ≥ ·)) (i : ℕ) (hi : i < σ.length) :
    i < (σ.filter fun s => decide (ε < s)).length ↔ ε < σ.getD i 0 := by
  induction σ generalizing i with
  | nil => simp at hi
  | cons a σ ih =>
    rw [List.pairwise_cons] at hs
    by_cases ha : ε < a
    · rw [List.filter_cons_of_pos (by simpa using ha)]
      cases i with
      | zero => simpa using ha
      | succ i =>
        rw [List.length_cons, Nat.succ_lt_succ_iff, List.getD_cons_succ]
        exact ih hs.2 i (by simpa using hi)
    · have hz : (a :: σ).filter (fun s => decide (ε < s)) = [] := by
        rw [List.filter_eq_nil_iff]
        intro x hx
        rcases List.mem_cons.1 hx with rfl | hx
        · simpa using ha
        · simpa using le_trans (hs.1 x hx) (not_lt.1 ha)
      rw [hz]
      simp only [List.length_nil, Nat.not_lt_zero, false_iff, not_lt]
      cases i with
      | zero => simpa using not_lt.1 ha
      | succ i =>
        rw [List.getD_cons_succ]
        have hm : σ.getD i 0 ∈ σ := by
          have hi' : i < σ.length := by simpa using hi
          rw [List.getD_eq_getElem _ _ hi']
          exact List.getElem_mem hi'
        exact le_trans (hs.1 _ hm) (not_lt.1 ha)

variable {A : List (Fin D → Fin N → ℝ)} {r : List ℝ × List (Fin D → Fin N → ℝ)}

theorem getD_mem_of_lt {R : Type} (l : List R) (z : R) (i : ℕ) (h : i < l.length) : l.getD i z ∈ l := by
  rw [List.getD_eq_getElem _ _ h]
  exact List.getElem_mem h

/-- No singular value lies in (0, 1e-10]. -/
def SvdGap (σ : List ℝ) : Prop := ∀ s ∈ σ, s = 0 ∨ 1e-10 < s

theorem abs_filter (h : ∀ s ∈ r.1, 0 ≤ s) :
    (r.1.filter fun s => decide (1e-10 < |s|)) = r.1.filter fun s => decide (1e-10 < s) := by
  apply List.filter_congr
  intro s hs
  rw [abs_of_nonneg (h s hs)]

/-- With the contract and the gap, `polynomial_set_union_normalized` returns as many rows as the rank, and they span the same
space as the rows of `A` and `B`. -/
theorem union_rows_span (svd : List (Fin D → Fin N → ℝ) → List ℝ × List (Fin D → Fin N → ℝ))
    (A B : List (Fin D → Fin N → ℝ)) (h : IsSVD (A ++ B) (svd (A ++ B))) (hg : SvdGap (svd (A ++ B)).1) :
    Submodule.span ℝ {x | x ∈ unionRows svd A B} = Submodule.span ℝ {x | x ∈ A ++ B} ∧
    LinearIndependent ℝ (fun i : Fin (unionRows svd A B).length => (unionRows svd A B).get i) := by
  set r := svd (A ++ B) with hr
  set M := A ++ B with hM
  set n := (r.1.filter fun s => decide (1e-10 < |s|)).length with hn
  have hU : unionRows svd A B = r.2.take n := rfl
  have hn' : n = (r.1.filter fun s => decide (1e-10 < s)).length := by rw [hn, abs_filter h.nonneg]
  have hnle : n ≤ r.1.length := List.length_filter_le _ _
  have hle : r.1.length ≤ D * N := by rw [h.length]; exact min_le_right _ _
  have hpre : ∀ i < r.1.length, (i < n ↔ 1e-10 < r.1.getD i 0) := by
    intro i hi
    rw [hn']; exact filter_prefix r.1 1e-10 h.sorted i hi
  have hzero : ∀ i < r.1.length, ¬ i < n → r.1.getD i 0 = 0 := by
    intro i hi hin
    rcases hg _ (getD_mem_of_lt r.1 0 i hi) with h0 | h0
    · exact h0
    · exact absurd ((hpre i hi).2 h0) hin
  have hpos : ∀ i < n, r.1.getD i 0 ≠ 0 := by
    intro i hi
    have := (hpre i (lt_of_lt_of_le hi hnle)).1 hi
    have : (0 : ℝ) < r.1.getD i 0 := lt_trans (by norm_num) this
    exact this.ne'
  have hmem : ∀ i < n, r.2.getD i 0 ∈ r.2.take n := by
    intro i hi
    have hi2 : i < r.2.length := by rw [h.rows]; omega
    rw [List.getD_eq_getElem _ _ hi2, List.mem_take_iff_getElem]
    exact ⟨i, by omega, rfl⟩
  obtain ⟨u, hu1, hu2⟩ := h.factor
  constructor
  · rw [hU]
    apply le_antisymm
    · rw [Submodule.span_le]
      intro x hx
      obtain ⟨i, hi, rfl⟩ := List.mem_take_iff_getElem.1 hx
      have hin : i < n := by omega
      have hi2 : i < r.2.length := by omega
      have key : ∑ a ∈ Finset.range M.length, u a i • M.getD a 0 = r.1.getD i 0 • r.2.getD i 0 := by
        calc ∑ a ∈ Finset.range M.length, u a i • M.getD a 0
            = ∑ a ∈ Finset.range M.length, ∑ j ∈ Finset.range r.1.length, (u a i * u a j * r.1.getD j 0) • r.2.getD j 0 := by
              refine Finset.sum_congr rfl fun a ha => ?_
              rw [hu1 a (Finset.mem_range.1 ha), Finset.smul_sum]
              exact Finset.sum_congr rfl fun j _ => by rw [smul_smul, mul_assoc]
          _ = ∑ j ∈ Finset.range r.1.length, (∑ a ∈ Finset.range M.length, u a i * u a j * r.1.getD j 0) • r.2.getD j 0 := by
              rw [Finset.sum_comm]
              exact Finset.sum_congr rfl fun j _ => by rw [Finset.sum_smul]
          _ = r.1.getD i 0 • r.2.getD i 0 := by
              rw [Finset.sum_eq_single i]
              · rw [← Finset.sum_mul, hu2 i i (by omega) (by omega) (hpos i hin) (hpos i hin), if_pos rfl, one_mul]
              · intro j hj hji
                by_cases hz : r.1.getD j 0 = 0
                · simp only [hz, mul_zero, Finset.sum_const_zero, zero_smul]
                · rw [← Finset.sum_mul, hu2 i j (by omega) (Finset.mem_range.1 hj) (hpos i hin) hz, if_neg (Ne.symm hji)]
                  simp
              · intro hi'; exact absurd (Finset.mem_range.2 (by omega)) hi'
      have hxi : r.2[i] = (r.1.getD i 0)⁻¹ • ∑ a ∈ Finset.range M.length, u a i • M.getD a 0 := by
        rw [key, smul_smul, inv_mul_cancel₀ (hpos i hin), one_smul, List.getD_eq_getElem _ _ hi2]
      rw [SetLike.mem_coe, hxi]
      refine Submodule.smul_mem _ _ (Submodule.sum_mem _ fun a ha => Submodule.smul_mem _ _ (Submodule.subset_span ?_))
      exact getD_mem_of_lt M 0 a (Finset.mem_range.1 ha)
    · rw [Submodule.span_le]
      intro x hx
      obtain ⟨a, ha, rfl⟩ := List.mem_iff_getElem.1 hx
      have := hu1 a ha
      rw [List.getD_eq_getElem _ _ ha] at this
      rw [SetLike.mem_coe, this]
      refine Submodule.sum_mem _ fun i hi => ?_
      by_cases hin : i < n
      · exact Submodule.smul_mem _ _ (Submodule.subset_span (hmem i hin))
      · rw [hzero i (Finset.mem_range.1 hi) hin, mul_zero, zero_smul]
        exact Submodule.zero_mem _
  · rw [Fintype.linearIndependent_iff]
    intro g hg' i
    have hlen : (unionRows svd A B).length = n := by
      rw [hU, List.length_take, h.rows]; omega
    have hget : ∀ j : Fin (unionRows svd A B).length, (unionRows svd A B).get j = r.2.getD j 0 := by
      intro j
      have hj : (j : ℕ) < n := hlen ▸ j.2
      rw [List.getD_eq_getElem _ _ (by rw [h.rows]; omega)]
      simp only [List.get_eq_getElem, hU, List.getElem_take]
    have h1 : ∑ c, ∑ l, (∑ j, g j • (unionRows svd A B).get j) c l * r.2.getD i 0 c l = 0 := by
      rw [hg']; simp
    have h2 : ∑ c, ∑ l, (∑ j, g j • (unionRows svd A B).get j) c l * r.2.getD i 0 c l =
        ∑ j, g j * ∑ c, ∑ l, r.2.getD j 0 c l * r.2.getD i 0 c l := by
      simp only [Finset.sum_apply, Pi.smul_apply, smul_eq_mul, Finset.sum_mul, Finset.mul_sum, hget]
      simp_rw [Finset.sum_comm (s := (Finset.univ : Finset (Fin N))) (t := (Finset.univ : Finset (Fin (unionRows svd A B).length)))]
      rw [Finset.sum_comm]
      exact Finset.sum_congr rfl fun j _ => Finset.sum_congr rfl fun c _ => Finset.sum_congr rfl fun l _ => by ring
    rw [h2, Finset.sum_eq_single i] at h1
    · have hi : (i : ℕ) < n := hlen ▸ i.2
      rw [h.ortho i i (by omega) (by omega), if_pos rfl, mul_one] at h1
      exact h1
    · intro j _ hji
      have hi : (i : ℕ) < n := hlen ▸ i.2
      have hj : (j : ℕ) < n := hlen ▸ j.2
      rw [h.ortho j i (by omega) (by omega), if_neg (fun hh => hji (Fin.ext hh)), mul_zero]
    · simp

end
end FIAT
