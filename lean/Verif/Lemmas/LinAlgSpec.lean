/-
Contracts of `numpy.linalg.svd` and `numpy.linalg.qr`, their consequences, and matrices that meet them.
-/
import Verif.Model.Normals
import Verif.Lemmas.SVD
import Mathlib.Analysis.InnerProductSpace.PiL2
import Mathlib.LinearAlgebra.Matrix.NonsingularInverse

namespace FIAT
section
open Matrix

/-- The `n x m` matrix with the list `s` on the diagonal. -/
def diagMat (n m : ℕ) (s : List ℝ) : Matrix (Fin n) (Fin m) ℝ := fun i j => if (i : ℕ) = (j : ℕ) then s.getD i 0 else 0

/-- Contract of `(u, s, vt) = numpy.linalg.svd(A)`: `A = u diag(s) vt`, `u` and `vt` orthogonal, `s` nonnegative and decreasing. -/
structure SVDOf {n m : ℕ} (A : Matrix (Fin n) (Fin m) ℝ) (r : Matrix (Fin n) (Fin n) ℝ × List ℝ × Matrix (Fin m) (Fin m) ℝ) : Prop where
  nonneg : ∀ x ∈ r.2.1, 0 ≤ x
  sorted : r.2.1.Pairwise (· ≥ ·)
  length : r.2.1.length = min n m
  u : r.1ᵀ * r.1 = 1
  vt : r.2.2 * r.2.2ᵀ = 1
  factor : A = r.1 * diagMat n m r.2.1 * r.2.2

/-- Contract of `(q, r) = numpy.linalg.qr(A)`: `A = q r`, `q` with orthonormal columns (that `r` is upper triangular is not needed). -/
structure QROf {m p : ℕ} (A : Matrix (Fin m) (Fin p) ℝ) (r : Matrix (Fin m) (Fin (min m p)) ℝ × Matrix (Fin (min m p)) (Fin p) ℝ) : Prop where
  q : r.1ᵀ * r.1 = 1
  factor : A = r.1 * r.2

/-- Contract of the two functions. -/
structure LinAlgOK (L : LinAlg) : Prop where
  svd : ∀ n m (A : Matrix (Fin n) (Fin m) ℝ), SVDOf A (L.svd n m A)
  qr : ∀ m p (A : Matrix (Fin m) (Fin p) ℝ), QROf A (L.qr m p A)

section svd
variable {n m : ℕ} {A : Matrix (Fin n) (Fin m) ℝ} {r : Matrix (Fin n) (Fin n) ℝ × List ℝ × Matrix (Fin m) (Fin m) ℝ}

theorem SVDOf.left (h : SVDOf A r) : r.1ᵀ * A = diagMat n m r.2.1 * r.2.2 := by
  conv_lhs => rw [h.factor]
  rw [← Matrix.mul_assoc, ← Matrix.mul_assoc, h.u, Matrix.one_mul]

theorem SVDOf.right (h : SVDOf A r) : A * r.2.2ᵀ = r.1 * diagMat n m r.2.1 := by
  conv_lhs => rw [h.factor]
  rw [Matrix.mul_assoc, h.vt, Matrix.mul_one]

theorem SVDOf.u' (h : SVDOf A r) : r.1 * r.1ᵀ = 1 := mul_eq_one_comm.1 h.u
theorem SVDOf.vt' (h : SVDOf A r) : r.2.2ᵀ * r.2.2 = 1 := mul_eq_one_comm.1 h.vt

theorem diag_mul_row (s : List ℝ) (V : Matrix (Fin m) (Fin m) ℝ) (k : Fin n) (hk : (k : ℕ) < m) (j : Fin m) :
    (diagMat n m s * V) k j = s.getD k 0 * V ⟨k, hk⟩ j := by
  rw [Matrix.mul_apply, Finset.sum_eq_single ⟨k, hk⟩]
  · simp [diagMat]
  · intro b _ hb
    have : ¬ ((k : ℕ) = (b : ℕ)) := fun h => hb (Fin.ext h.symm)
    simp [diagMat, this]
  · simp

theorem mul_diag_col (s : List ℝ) (U : Matrix (Fin n) (Fin n) ℝ) (i : Fin n) (k : Fin m) (hk : (k : ℕ) < n) :
    (U * diagMat n m s) i k = U i ⟨k, hk⟩ * s.getD k 0 := by
  rw [Matrix.mul_apply, Finset.sum_eq_single ⟨k, hk⟩]
  · simp [diagMat]
  · intro b _ hb
    have : ¬ ((b : ℕ) = (k : ℕ)) := fun h => hb (Fin.ext h)
    simp [diagMat, this]
  · simp

theorem mul_diag_zero (s : List ℝ) (U : Matrix (Fin n) (Fin n) ℝ) (i : Fin n) (k : Fin m) (hk : n ≤ (k : ℕ)) :
    (U * diagMat n m s) i k = 0 := by
  rw [Matrix.mul_apply]
  refine Finset.sum_eq_zero fun b _ => ?_
  have : ¬ ((b : ℕ) = (k : ℕ)) := by have := b.2; omega
  simp [diagMat, this]

theorem orth_cols {p : ℕ} {U : Matrix (Fin p) (Fin n) ℝ} (h : Uᵀ * U = 1) (k k' : Fin n) : ∑ i, U i k * U i k' = if k = k' then 1 else 0 := by
  have := congrFun (congrFun h k) k'
  rw [Matrix.mul_apply, Matrix.one_apply] at this
  simpa [Matrix.transpose_apply] using this

theorem orth_rows {p : ℕ} {V : Matrix (Fin n) (Fin p) ℝ} (h : V * Vᵀ = 1) (k k' : Fin n) : ∑ i, V k i * V k' i = if k = k' then 1 else 0 := by
  have := congrFun (congrFun h k) k'
  rw [Matrix.mul_apply, Matrix.one_apply] at this
  simpa [Matrix.transpose_apply] using this

/-- Specification: the rows of `A` are independent, and not too small: the length of a combination with coefficients of length 1 is larger
than the tolerance 1e-10. -/
def WellScaled (A : Matrix (Fin n) (Fin m) ℝ) : Prop := ∀ c : Fin n → ℝ, c ≠ 0 → 1e-20 * ∑ i, c i ^ 2 < ∑ j, (∑ i, c i * A i j) ^ 2

theorem sing_of_rows (h : SVDOf A r) (hA : WellScaled A) (hnm : n ≤ m) : ∀ x ∈ r.2.1, 1e-10 < x := by
  intro x hx
  obtain ⟨k, hk, rfl⟩ := List.getElem_of_mem hx
  have hkn : k < n := by
    rw [h.length] at hk
    exact lt_of_lt_of_le hk (min_le_left _ _)
  have h0 := h.nonneg _ (List.getElem_mem hk)
  have h1 := hA (fun i => r.1 i ⟨k, hkn⟩) (by
    intro h0
    have := orth_cols h.u ⟨k, hkn⟩ ⟨k, hkn⟩
    have hz : ∀ i, r.1 i ⟨k, hkn⟩ = 0 := fun i => congrFun h0 i
    simp [hz] at this)
  have h2 : ∑ i, r.1 i ⟨k, hkn⟩ ^ 2 = 1 := by
    have := orth_cols h.u ⟨k, hkn⟩ ⟨k, hkn⟩
    rw [if_pos rfl] at this
    rw [← this]
    exact Finset.sum_congr rfl fun i _ => by ring
  have h3 : ∀ j, ∑ i, r.1 i ⟨k, hkn⟩ * A i j = r.2.1[k] * r.2.2 ⟨k, lt_of_lt_of_le hkn hnm⟩ j := by
    intro j
    have := congrFun (congrFun h.left ⟨k, hkn⟩) j
    rw [diag_mul_row _ _ _ (lt_of_lt_of_le hkn hnm), Matrix.mul_apply] at this
    simp only [Matrix.transpose_apply] at this
    rw [this, List.getD_eq_getElem?_getD, List.getElem?_eq_getElem hk]
    rfl
  have h4 : ∑ j, (r.2.1[k] * r.2.2 ⟨k, lt_of_lt_of_le hkn hnm⟩ j) ^ 2 = r.2.1[k] ^ 2 := by
    have := orth_rows h.vt ⟨k, lt_of_lt_of_le hkn hnm⟩ ⟨k, lt_of_lt_of_le hkn hnm⟩
    rw [if_pos rfl] at this
    calc _ = r.2.1[k] ^ 2 * ∑ j, r.2.2 ⟨k, lt_of_lt_of_le hkn hnm⟩ j * r.2.2 ⟨k, lt_of_lt_of_le hkn hnm⟩ j := by
          rw [Finset.mul_sum]
          exact Finset.sum_congr rfl fun j _ => by ring
      _ = _ := by rw [this, mul_one]
  rw [h2] at h1
  simp only [h3] at h1
  rw [h4] at h1
  nlinarith

theorem sing_of_cols (h : SVDOf A r) (hA : WellScaled Aᵀ) (hmn : m ≤ n) : ∀ x ∈ r.2.1, 1e-10 < x := by
  have h' : SVDOf Aᵀ (r.2.2ᵀ, r.2.1, r.1ᵀ) := by
    refine ⟨h.nonneg, h.sorted, by rw [h.length, min_comm], by rw [Matrix.transpose_transpose]; exact h.vt,
      by rw [Matrix.transpose_transpose]; exact h.u, ?_⟩
    have hd : (diagMat n m r.2.1)ᵀ = diagMat m n r.2.1 := by
      ext i j
      simp only [Matrix.transpose_apply, diagMat]
      by_cases hij : (j : ℕ) = (i : ℕ)
      · rw [if_pos hij, if_pos hij.symm, hij]
      · rw [if_neg hij, if_neg (fun h => hij h.symm)]
    conv_lhs => rw [h.factor, Matrix.transpose_mul, Matrix.transpose_mul, hd]
    rw [Matrix.mul_assoc]
  exact sing_of_rows (n := m) (m := n) (A := Aᵀ) (r := (r.2.2ᵀ, r.2.1, r.1ᵀ)) h' hA hmn

theorem rankOf_full {s : List ℝ} (h : ∀ x ∈ s, 1e-10 < x) : rankOf s = s.length := by
  unfold rankOf
  rw [List.filter_eq_self.2 fun x hx => by simpa using h x hx]

end svd

/-- The intersection of a line with the whole space is the line. -/
theorem intersection_line {L : LinAlg} (hL : LinAlgOK L) {m p m' q : ℕ} (A : Matrix (Fin m) (Fin p) ℝ) (B : Matrix (Fin m') (Fin q) ℝ)
    (hp : p = 1) (hm : m = m') (hq : q = m) (hpos : 1 ≤ m) (hB : B * Bᵀ = 1) :
    ∃ x, subspaceIntersection L A B = some x ∧ ∃ h : x.1 = 1, ∑ i, x.2 i ⟨0, by omega⟩ * x.2 i ⟨0, by omega⟩ = 1 ∧
      ∃ c : ℝ, ∀ i, A i ⟨0, by omega⟩ = c * x.2 i ⟨0, by omega⟩ := by
  subst hp hm hq
  unfold subspaceIntersection
  rw [dif_pos rfl]
  have hBc : B.submatrix (Fin.cast rfl) id = B := rfl
  rw [hBc]
  have hqa := hL.qr q 1 A
  have hqb := hL.qr q q B
  set qa := (L.qr q 1 A).1 with hqa'
  set ra := (L.qr q 1 A).2 with hra'
  set qb := (L.qr q q B).1 with hqb'
  have hbb : qb * qbᵀ = 1 := by
    have := hqb.q
    exact (Matrix.mul_eq_one_comm_of_card_eq _ _ _ (by simp)).1 this
  have hC : (qaᵀ * qb) * (qaᵀ * qb)ᵀ = 1 := by
    rw [Matrix.transpose_mul, Matrix.transpose_transpose, ← Matrix.mul_assoc, Matrix.mul_assoc _ qb, hbb, Matrix.mul_one]
    exact hqa.q
  have hs := hL.svd (min q 1) (min q q) (qaᵀ * qb)
  set y := L.svd (min q 1) (min q q) (qaᵀ * qb) with hy
  have hmin : min q 1 = 1 := by omega
  have hlen : y.2.1.length = 1 := by rw [hs.length]; omega
  have hone : ∀ x ∈ y.2.1, x = 1 := by
    intro x hx
    obtain ⟨k, hk, rfl⟩ := List.getElem_of_mem hx
    have hk1 : k < min q 1 := by omega
    have hk2 : k < min q q := by omega
    have h0 := hs.nonneg _ (List.getElem_mem hk)
    have h1 : (diagMat (min q 1) (min q q) y.2.1 * y.2.2) * (diagMat (min q 1) (min q q) y.2.1 * y.2.2)ᵀ = 1 := by
      rw [← hs.left, Matrix.transpose_mul, Matrix.transpose_transpose, ← Matrix.mul_assoc, Matrix.mul_assoc _ (qaᵀ * qb), hC, Matrix.mul_one]
      exact hs.u
    have h2 := orth_rows h1 ⟨k, hk1⟩ ⟨k, hk1⟩
    rw [if_pos rfl] at h2
    simp only [diag_mul_row _ _ (⟨k, hk1⟩ : Fin (min q 1)) hk2] at h2
    have h3 := orth_rows hs.vt ⟨k, hk2⟩ ⟨k, hk2⟩
    rw [if_pos rfl] at h3
    have h4 : y.2.1.getD k 0 = y.2.1[k] := by
      rw [List.getD_eq_getElem?_getD, List.getElem?_eq_getElem hk]; rfl
    rw [h4] at h2
    have h5 : y.2.1[k] ^ 2 * ∑ j, y.2.2 ⟨k, hk2⟩ j * y.2.2 ⟨k, hk2⟩ j = 1 := by
      rw [← h2, Finset.mul_sum]
      exact Finset.sum_congr rfl fun j _ => by ring
    rw [h3, mul_one] at h5
    nlinarith
  have hrank : (y.2.1.filter fun s => decide (|1.0 - s| < 1e-10)).length = 1 := by
    rw [List.filter_eq_self.2 fun x hx => by
      rw [hone x hx]
      norm_num]
    exact hlen
  refine ⟨_, rfl, by show min _ (min q 1) = 1; rw [hrank]; omega, ?_, ?_⟩
  · show ∑ i, (qa * y.1) i ⟨0, _⟩ * (qa * y.1) i ⟨0, _⟩ = 1
    have : (qa * y.1)ᵀ * (qa * y.1) = 1 := by
      rw [Matrix.transpose_mul, ← Matrix.mul_assoc, Matrix.mul_assoc _ qaᵀ, hqa.q, Matrix.mul_one, hs.u]
    have h2 := orth_cols this ⟨0, by omega⟩ ⟨0, by omega⟩
    rw [if_pos rfl] at h2
    exact h2
  · have hqaU : qa = (qa * y.1) * y.1ᵀ := by
      rw [Matrix.mul_assoc, hs.u', Matrix.mul_one]
    have hA : A = (qa * y.1) * (y.1ᵀ * ra) := by
      rw [← Matrix.mul_assoc, ← hqaU]
      exact hqa.factor
    refine ⟨(y.1ᵀ * ra) ⟨0, by omega⟩ 0, fun i => ?_⟩
    show A i 0 = _ * (qa * y.1) i ⟨0, _⟩
    conv_lhs => rw [hA]
    rw [Matrix.mul_apply, Finset.sum_eq_single ⟨0, by omega⟩]
    · exact mul_comm _ _
    · intro b _ hb
      exact absurd (Fin.ext (by have := b.2; omega)) hb
    · simp

/-! ### Such functions exist -/

theorem svdOf_exists {n m : ℕ} (A : Matrix (Fin n) (Fin m) ℝ) : ∃ r, SVDOf A r := by
  classical
  obtain ⟨r, h⟩ := svd_exists (D := 1) (N := m) (List.ofFn fun i (_ : Fin 1) => A i)
  obtain ⟨u, hu1, hu2⟩ := h.factor
  have hA : ∀ i : Fin n, (List.ofFn fun i (_ : Fin 1) => A i).getD (i : ℕ) 0 = fun _ => A i := by
    intro i
    rw [List.getD_eq_getElem?_getD, List.getElem?_eq_getElem (by simp)]
    simp
  have hlen : r.1.length = min n m := by rw [h.length]; simp
  set σ := r.1 with hσ
  let w : Fin n → EuclideanSpace ℝ (Fin n) := fun k => WithLp.toLp 2 fun a => u a k
  let S : Set (Fin n) := {k | (k : ℕ) < σ.length ∧ σ.getD k 0 ≠ 0}
  have hw : Orthonormal ℝ (S.restrict w) := by
    rw [orthonormal_iff_ite]
    rintro ⟨k, hk⟩ ⟨k', hk'⟩
    have := hu2 k k' hk.1 hk'.1 hk.2 hk'.2
    rw [List.length_ofFn, ← Fin.sum_univ_eq_sum_range (fun a => u a k * u a k')] at this
    simp only [PiLp.inner_apply, Subtype.mk.injEq]
    change (∑ x : Fin n, u x k' * u x k) = _
    rw [show (∑ x : Fin n, u x k' * u x k) = ∑ x : Fin n, u x k * u x k' from Finset.sum_congr rfl fun x _ => mul_comm _ _, this]
    simp only [Fin.ext_iff]
  obtain ⟨b, hb⟩ := hw.exists_orthonormalBasis_extension_of_card_eq (by simp)
  have hbo := b.orthonormal
  rw [orthonormal_iff_ite] at hbo
  let V : Matrix (Fin m) (Fin m) ℝ := fun k j => r.2.getD k 0 0 j
  refine ⟨(fun i k => b k i, σ, V), h.nonneg, h.sorted, hlen, ?_, ?_, ?_⟩
  · ext k k'
    have := hbo k k'
    rw [PiLp.inner_apply] at this
    rw [Matrix.mul_apply, Matrix.one_apply, ← this]
    refine Finset.sum_congr rfl fun i _ => ?_
    show b k i * b k' i = b k' i * b k i
    exact mul_comm _ _
  · ext k k'
    have := h.ortho k k' (by simp) (by simp)
    rw [Fin.sum_univ_one] at this
    rw [Matrix.mul_apply, Matrix.one_apply]
    refine Eq.trans this ?_
    simp only [Fin.ext_iff]
  · ext i j
    have h1 := hu1 i (by simp)
    rw [hA i] at h1
    have h2 := congrFun (congrFun h1 0) j
    rw [Finset.sum_apply, Finset.sum_apply] at h2
    rw [h2, Matrix.mul_assoc, Matrix.mul_apply]
    have hle : σ.length ≤ n := by rw [hlen]; exact min_le_left _ _
    have hle' : σ.length ≤ m := by rw [hlen]; exact min_le_right _ _
    have h3 : ∀ k : Fin n, b k i * (diagMat n m σ * V) k j =
        if (k : ℕ) < σ.length then u i k * σ.getD k 0 * r.2.getD k 0 0 j else 0 := by
      intro k
      by_cases hk : (k : ℕ) < σ.length
      · rw [if_pos hk]
        have e := diag_mul_row (n := n) σ V k (by omega) j
        rw [e]
        by_cases h0 : σ.getD k 0 = 0
        · rw [h0]; ring
        · rw [hb k ⟨hk, h0⟩]
          show u i k * _ = _
          ring
      · rw [if_neg hk]
        have : (diagMat n m σ * V) k j = 0 := by
          rw [Matrix.mul_apply]
          refine Finset.sum_eq_zero fun l _ => ?_
          have : diagMat n m σ k l = 0 := by
            unfold diagMat
            split_ifs with hkl
            · exact List.getD_eq_default _ _ (by omega)
            · rfl
          rw [this, zero_mul]
        rw [this, mul_zero]
    rw [Finset.sum_congr rfl fun k _ => h3 k, Fin.sum_univ_eq_sum_range (fun k => if k < σ.length then u i k * σ.getD k 0 * r.2.getD k 0 0 j else 0),
      ← Finset.sum_filter]
    have hf : (Finset.range n).filter (fun k => k < σ.length) = Finset.range σ.length := by
      ext k
      simp only [Finset.mem_filter, Finset.mem_range]
      omega
    rw [hf]
    refine Finset.sum_congr rfl fun k _ => ?_
    simp [Pi.smul_apply]

theorem qrOf_exists {m p : ℕ} (A : Matrix (Fin m) (Fin p) ℝ) : ∃ r, QROf A r := by
  obtain ⟨r, h⟩ := svdOf_exists A
  refine ⟨(fun i k => r.1 i ⟨k, lt_of_lt_of_le k.2 (min_le_left _ _)⟩,
    fun k j => (diagMat m p r.2.1 * r.2.2) ⟨k, lt_of_lt_of_le k.2 (min_le_left _ _)⟩ j), ?_, ?_⟩
  · ext k k'
    have := orth_cols h.u ⟨k, lt_of_lt_of_le k.2 (min_le_left _ _)⟩ ⟨k', lt_of_lt_of_le k'.2 (min_le_left _ _)⟩
    rw [Matrix.mul_apply, Matrix.one_apply]
    refine Eq.trans this ?_
    simp only [Fin.ext_iff, Fin.val_mk]
  · ext i j
    have h1 : A i j = ∑ k : Fin m, r.1 i k * (diagMat m p r.2.1 * r.2.2) k j := by
      conv_lhs => rw [h.factor, Matrix.mul_assoc, Matrix.mul_apply]
    rw [h1, Matrix.mul_apply]
    symm
    refine Finset.sum_of_injOn (fun k : Fin (min m p) => (⟨k, lt_of_lt_of_le k.2 (min_le_left _ _)⟩ : Fin m)) ?_ (by simp) ?_ (by simp)
    · intro a _ b _ hab
      exact Fin.ext (Fin.mk.inj hab)
    · intro k _ hk
      have hkp : p ≤ (k : ℕ) := by
        by_contra hc
        apply hk
        exact ⟨⟨k, by have := k.2; omega⟩, by simp, rfl⟩
      have : (diagMat m p r.2.1 * r.2.2) k j = 0 := by
        rw [Matrix.mul_apply]
        refine Finset.sum_eq_zero fun l _ => ?_
        have : ¬ ((k : ℕ) = (l : ℕ)) := by have := l.2; omega
        simp [diagMat, this]
      rw [this, mul_zero]

/-- There are functions that meet the contract. -/
theorem linAlgOK_exists : ∃ L, LinAlgOK L := by
  choose f hf using @svdOf_exists
  choose g hg using @qrOf_exists
  exact ⟨⟨fun _ _ A => f A, fun _ _ A => g A⟩, fun _ _ A => hf A, fun _ _ A => hg A⟩

end
end FIAT
