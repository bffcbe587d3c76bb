/-
Volumes of simplices and scaled normals (C66).
-/
import Verif.Lemmas.Normals
import Verif.Lemmas.Dirichlet
import Verif.Props.Affine
import Mathlib.LinearAlgebra.Matrix.Determinant.Basic

namespace FIAT
section
open Matrix
variable {D : ℕ}

theorem affine_from_ufc (vs : List (Fin D → ℝ)) (hne : vs ≠ []) :
    ∃ A b, makeAffineMapping (List.ofFn (ufcVerts ℝ (vs.length - 1))) vs = some (A, b) ∧ Aᵀ = edgeRows vs := by
  obtain ⟨A, b, h1, h2, -⟩ := make_affine_mapping_spec (ufcVerts ℝ (vs.length - 1)) (fun i => vs.getD i 0) (ufcVerts_affineIndependent _)
  have hpos : 0 < vs.length := List.length_pos_iff.2 hne
  have hvs : List.ofFn (fun i : Fin (vs.length - 1 + 1) => vs.getD i 0) = vs := by
    apply List.ext_getElem
    · rw [List.length_ofFn]; omega
    · intro i h1 h2
      rw [List.getElem_ofFn]
      show vs.getD i 0 = _
      rw [List.getD_eq_getElem?_getD, List.getElem?_eq_getElem h2]
      rfl
  rw [hvs] at h1
  refine ⟨A, b, h1, ?_⟩
  ext i j
  have e0 := congrFun (h2 0) j
  have e1 := congrFun (h2 i.succ) j
  rw [Pi.add_apply] at e0 e1
  have z : A.mulVec (ufcVerts ℝ (vs.length - 1) 0) j = 0 := by
    simp [Matrix.mulVec, dotProduct, ufcVerts]
  have y : A.mulVec (ufcVerts ℝ (vs.length - 1) i.succ) j = A j i := by
    simp [Matrix.mulVec, dotProduct, ufcVerts]
  rw [z, zero_add] at e0
  rw [y, e0] at e1
  rw [Matrix.transpose_apply]
  show A j i = vs.getD ((i : ℕ) + 1) 0 j - vs.getD 0 0 j
  have e2 : vs.getD ((i.succ : Fin (vs.length - 1 + 1)) : ℕ) 0 j = vs.getD ((i : ℕ) + 1) 0 j := by rw [Fin.val_succ]
  have e3 : vs.getD ((0 : Fin (vs.length - 1 + 1)) : ℕ) 0 j = vs.getD 0 0 j := rfl
  rw [← e2, ← e1, e3]
  ring

/-- The product of the singular values is the square root of the Gram determinant. -/
theorem prod_sing {n m : ℕ} {A : Matrix (Fin n) (Fin m) ℝ} {r : Matrix (Fin n) (Fin n) ℝ × List ℝ × Matrix (Fin m) (Fin m) ℝ}
    (h : SVDOf A r) (hmn : m ≤ n) : r.2.1.prod ^ 2 = (Aᵀ * A).det := by
  have hlen : r.2.1.length = m := by rw [h.length]; omega
  have hd : (diagMat n m r.2.1)ᵀ * diagMat n m r.2.1 = Matrix.diagonal fun k : Fin m => r.2.1.getD k 0 ^ 2 := by
    ext i k
    rw [Matrix.mul_apply, Matrix.diagonal_apply, Finset.sum_eq_single ⟨i, lt_of_lt_of_le i.2 hmn⟩]
    · simp only [Matrix.transpose_apply, diagMat, if_true]
      by_cases hik : i = k
      · rw [if_pos hik, if_pos (by rw [hik])]; ring
      · rw [if_neg hik, if_neg (fun h => hik (Fin.ext h)), mul_zero]
    · intro b _ hb
      have : ¬ ((b : ℕ) = (i : ℕ)) := fun h => hb (Fin.ext h)
      simp [diagMat, this]
    · simp
  have hA : Aᵀ * A = r.2.2ᵀ * ((diagMat n m r.2.1)ᵀ * diagMat n m r.2.1) * r.2.2 := by
    conv_lhs => rw [h.factor]
    rw [Matrix.transpose_mul, Matrix.transpose_mul]
    simp only [Matrix.mul_assoc]
    rw [← Matrix.mul_assoc r.1ᵀ, h.u, Matrix.one_mul]
  have hv : r.2.2ᵀ.det * r.2.2.det = 1 := by rw [← Matrix.det_mul, h.vt', Matrix.det_one]
  have hs : r.2.1 = List.ofFn fun k : Fin m => r.2.1.getD k 0 := by
    apply List.ext_getElem
    · rw [List.length_ofFn, hlen]
    · intro k h1 h2
      rw [List.getElem_ofFn]
      show _ = r.2.1.getD k 0
      rw [List.getD_eq_getElem?_getD, List.getElem?_eq_getElem h1]
      rfl
  rw [hA, Matrix.det_mul, Matrix.det_mul, hd, Matrix.det_diagonal, Finset.prod_pow]
  have hp : r.2.1.prod = ∏ k : Fin m, r.2.1.getD k 0 := by
    conv_lhs => rw [hs]
    rw [List.prod_ofFn]
  rw [hp]
  linear_combination (-(∏ k : Fin m, r.2.1.getD k 0) ^ 2) * hv

theorem volume_list {L : LinAlg} (hL : LinAlgOK L) (vs : List (Fin D → ℝ)) (hne : vs ≠ []) (h4 : vs.length ≤ 4) (hle : vs.length - 1 ≤ D)
    (hv : NotTiny vs) : ∃ v, volume L vs = some v ∧ 0 < v ∧ (v * ((vs.length - 1).factorial : ℝ)) ^ 2 = (edgeRows vs * (edgeRows vs)ᵀ).det := by
  obtain ⟨A, b, h1, h2⟩ := affine_from_ufc vs hne
  have hpos : 0 < vs.length := List.length_pos_iff.2 hne
  have hs := hL.svd _ _ A
  have hbig := sing_of_cols hs (by rw [h2]; exact hv) hle
  have hprod := prod_sing hs hle
  refine ⟨(L.svd _ _ A).2.1.prod / ((vs.length - 1).factorial : ℝ), ?_, ?_, ?_⟩
  · unfold volume
    rw [if_neg (by omega), h1]
    show some (volumeOf _ _) = _
    unfold volumeOf
    rw [List.filter_eq_self.2 fun x hx => by simpa using hbig x hx]
  · refine div_pos (List.prod_pos fun a ha => ?_) (by positivity)
    have := hbig a ha
    linarith [this, (by norm_num : (0 : ℝ) < 1e-10)]
  · rw [div_mul_cancel₀ _ (by positivity), hprod, ← h2, Matrix.transpose_transpose]

/-- The edges from the first vertex. -/
def edgesOf {n : ℕ} (w : Fin (n + 1) → Fin D → ℝ) : Matrix (Fin n) (Fin D) ℝ := fun i j => w i.succ j - w 0 j

theorem edgeRows_ofFn {n : ℕ} (w : Fin (n + 1) → Fin D → ℝ) (i : Fin ((List.ofFn w).length - 1)) (j : Fin D) :
    edgeRows (List.ofFn w) i j = edgesOf w (finCongr (by simp) i) j := by
  have hi : (i : ℕ) + 1 < (List.ofFn w).length := by have := i.2; omega
  unfold edgeRows edgesOf
  rw [List.getD_eq_getElem?_getD, List.getElem?_eq_getElem hi, List.getD_eq_getElem?_getD, List.getElem?_eq_getElem (by simp)]
  simp only [Option.getD_some, List.getElem_ofFn]
  rfl

theorem gram_ofFn {n : ℕ} (w : Fin (n + 1) → Fin D → ℝ) :
    (edgeRows (List.ofFn w) * (edgeRows (List.ofFn w))ᵀ).det = (edgesOf w * (edgesOf w)ᵀ).det := by
  have e : (List.ofFn w).length - 1 = n := by simp
  rw [← Matrix.det_submatrix_equiv_self (finCongr e) (edgesOf w * (edgesOf w)ᵀ)]
  congr 1
  ext i k
  rw [Matrix.submatrix_apply, Matrix.mul_apply, Matrix.mul_apply]
  refine Finset.sum_congr rfl fun j _ => ?_
  rw [Matrix.transpose_apply, Matrix.transpose_apply, edgeRows_ofFn, edgeRows_ofFn]

theorem notTiny_ofFn {n : ℕ} (w : Fin (n + 1) → Fin D → ℝ) :
    NotTiny (List.ofFn w) ↔ ∀ c : Fin n → ℝ, c ≠ 0 → 1e-20 * ∑ i, c i ^ 2 < ∑ j, (∑ i, c i * (w i.succ j - w 0 j)) ^ 2 := by
  have e : (List.ofFn w).length - 1 = n := by simp
  have key : ∀ c : Fin n → ℝ, (1e-20 * ∑ i, (c ∘ finCongr e) i ^ 2 <
      ∑ j, (∑ i, (c ∘ finCongr e) i * ((List.ofFn w).getD ((i : ℕ) + 1) 0 j - (List.ofFn w).getD 0 0 j)) ^ 2) ↔
      1e-20 * ∑ i, c i ^ 2 < ∑ j, (∑ i, c i * (w i.succ j - w 0 j)) ^ 2 := by
    intro c
    rw [Fintype.sum_equiv (finCongr e) (fun i => (c ∘ finCongr e) i ^ 2) (fun i => c i ^ 2) fun i => rfl]
    have : ∀ j, ∑ i, (c ∘ finCongr e) i * ((List.ofFn w).getD ((i : ℕ) + 1) 0 j - (List.ofFn w).getD 0 0 j) =
        ∑ i, c i * (w i.succ j - w 0 j) := by
      intro j
      refine Fintype.sum_equiv (finCongr e) _ _ fun i => ?_
      have := edgeRows_ofFn w i j
      unfold edgeRows edgesOf at this
      rw [this]
      rfl
    simp only [this]
  constructor
  · intro h c hc
    refine (key c).1 (h (c ∘ finCongr e) fun h0 => hc ?_)
    funext i
    have := congrFun h0 ((finCongr e).symm i)
    simpa using this
  · intro h c hc
    have h1 := (key (c ∘ (finCongr e).symm)).2 (h _ fun h0 => hc (by
      funext i
      have := congrFun h0 (finCongr e i)
      simpa using this))
    have h2 : (c ∘ (finCongr e).symm) ∘ finCongr e = c := by
      funext i
      simp
    rwa [h2] at h1

/-- The measure of a simplex from the determinant of its edges. -/
theorem hull_measure (v : Fin (D + 1) → Fin D → ℝ) (hv : AffineIndependent ℝ v) :
    (MeasureTheory.volume (convexHull ℝ (Set.range v))).toReal * (D.factorial : ℝ) = |(edgesOf v).det| := by
  obtain ⟨A, b, -, h2, -⟩ := make_affine_mapping_spec (dvert D) v (dvert_independent D)
  have hA : A.det ≠ 0 := by
    intro h0
    obtain ⟨A', b'', -, h2', -⟩ := make_affine_mapping_spec v (dvert D) hv
    have hcomp : ∀ i, (A' * A).mulVec (dvert D i) + (A'.mulVec b + b'') = dvert D i := by
      intro i
      rw [← Matrix.mulVec_mulVec, ← add_assoc, ← Matrix.mulVec_add, h2, h2']
    obtain ⟨A3, b3, -, -, hu3⟩ := make_affine_mapping_spec (dvert D) (dvert D) (dvert_independent D)
    have e1 := (hu3 _ _ hcomp).1
    have e2 := (hu3 1 0 fun i => by simp).1
    have e3 : A' * A = 1 := e1.trans e2.symm
    have e4 := congrArg Matrix.det e3
    rw [Matrix.det_mul, h0, mul_zero, Matrix.det_one] at e4
    exact zero_ne_one e4
  have h1 := integral_simplex v A b h2 hA fun _ => 1
  rw [MeasureTheory.setIntegral_const, smul_eq_mul, mul_one] at h1
  have h3 := ref_monomial D fun _ => 0
  simp only [pow_zero, Finset.prod_const_one, Nat.factorial_zero, Nat.cast_one, mul_one, Finset.sum_const_zero, add_zero] at h3
  rw [h3] at h1
  have h4 : edgesOf v = (edgeMatrix v)ᵀ := rfl
  rw [h4, Matrix.det_transpose]
  unfold MeasureTheory.Measure.real at h1
  rw [h1]
  have h5 : |(edgeMatrix v).det| = 2 ^ D * |A.det| := by
    rw [edge_of_map v A b h2, Matrix.det_smul, abs_mul, Fintype.card_fin, abs_of_pos (by positivity)]
  rw [h5]
  field_simp

/-- The determinant of the edges of a simplex, from its base and the component of the last edge along a unit normal of the base. -/
theorem det_base {m : ℕ} (M : Matrix (Fin (m + 1)) (Fin (m + 1)) ℝ) (N : Fin (m + 1) → ℝ) (hN : ∑ j, N j ^ 2 = 1)
    (horth : ∀ i : Fin m, ∑ j, N j * M i.castSucc j = 0) :
    M.det ^ 2 * (Matrix.det fun i k : Fin m => ∑ j, M i.castSucc j * M k.castSucc j) =
      ((Matrix.det fun i k : Fin m => ∑ j, M i.castSucc j * M k.castSucc j) * ∑ j, N j * M (Fin.last m) j) ^ 2 := by
  set G : Matrix (Fin m) (Fin m) ℝ := fun i k : Fin m => ∑ j, M i.castSucc j * M k.castSucc j with hG
  let M' : Matrix (Fin (m + 1)) (Fin (m + 1)) ℝ := fun i => Fin.lastCases N (fun i => M i.castSucc) i
  have hl : M' (Fin.last m) = N := by simp [M']
  have hc : ∀ i : Fin m, M' i.castSucc = M i.castSucc := fun i => by simp [M']
  have expand : ∀ P : Matrix (Fin (m + 1)) (Fin (m + 1)) ℝ, (∀ i : Fin m, P i.castSucc (Fin.last m) = 0) →
      (∀ i k : Fin m, P i.castSucc k.castSucc = G i k) → P.det = P (Fin.last m) (Fin.last m) * G.det := by
    intro P h0 h1
    rw [Matrix.det_succ_column P (Fin.last m), Finset.sum_eq_single (Fin.last m)]
    · have e : P.submatrix (Fin.last m).succAbove (Fin.last m).succAbove = G := by
        ext i k
        rw [Matrix.submatrix_apply, Fin.succAbove_last, h1]
      rw [e]
      simp [← two_mul]
    · intro i _ hi
      obtain ⟨i', rfl⟩ := Fin.exists_castSucc_eq.2 hi
      rw [h0]; ring
    · simp
  have e1 : M.det * M'.det = (∑ j, N j * M (Fin.last m) j) * G.det := by
    rw [← Matrix.det_transpose M', ← Matrix.det_mul, expand]
    · congr 1
      rw [Matrix.mul_apply]
      refine Finset.sum_congr rfl fun j _ => ?_
      rw [Matrix.transpose_apply, hl, mul_comm]
    · intro i
      rw [Matrix.mul_apply, ← horth i]
      refine Finset.sum_congr rfl fun j _ => ?_
      rw [Matrix.transpose_apply, hl, mul_comm]
    · intro i k
      rw [Matrix.mul_apply]
      refine Finset.sum_congr rfl fun j _ => ?_
      rw [Matrix.transpose_apply, hc]
  have e2 : M'.det * M'.det = G.det := by
    have : M'.det * M'.det = (M' * M'ᵀ).det := by rw [Matrix.det_mul, Matrix.det_transpose]
    rw [this, expand]
    · have : (M' * M'ᵀ) (Fin.last m) (Fin.last m) = 1 := by
        rw [Matrix.mul_apply, ← hN]
        refine Finset.sum_congr rfl fun j _ => ?_
        rw [Matrix.transpose_apply, hl]; ring
      rw [this, one_mul]
    · intro i
      rw [Matrix.mul_apply, ← horth i]
      refine Finset.sum_congr rfl fun j _ => ?_
      rw [Matrix.transpose_apply, hl, hc, mul_comm]
    · intro i k
      rw [Matrix.mul_apply]
      refine Finset.sum_congr rfl fun j _ => ?_
      rw [Matrix.transpose_apply, hc, hc]
  linear_combination (-M.det ^ 2) * e2 + (M.det * M'.det + (∑ j, N j * M (Fin.last m) j) * G.det) * e1

end
end FIAT
