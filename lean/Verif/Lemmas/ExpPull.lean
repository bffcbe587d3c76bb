/-
Pulling the members of the expansion sets back to an arbitrary simplex.
-/
import Verif.Lemmas.ExpBasis
import Mathlib.LinearAlgebra.Dimension.Constructions

namespace FIAT
open MvPolynomial MeasureTheory

section
variable {d : ℕ}

/-- Member number `m` on the simplex. -/
noncomputable def RefBasis.pull (B : RefBasis d) (M : Matrix (Fin d) (Fin d) ℝ) (b : Fin d → ℝ) (m : ℕ) :
    MvPolynomial (Fin d) ℝ := aeval (refPt M b X) (B.ψ (Function.surjInv B.surj m))

theorem aeval_refPt {A : Type} [CommRing A] [Algebra ℝ A] (M : Matrix (Fin d) (Fin d) ℝ) (b : Fin d → ℝ) (pts : Fin d → A)
    (i : Fin d) : aeval pts (refPt M b X i : MvPolynomial (Fin d) ℝ) = refPt M b pts i := by
  simp only [refPt, map_add, map_sum, map_mul, aeval_X, algebraMap_eq, aeval_C]

theorem RefBasis.pull_aeval (B : RefBasis d) {A : Type} [CommRing A] [Algebra ℝ A] (M : Matrix (Fin d) (Fin d) ℝ)
    (b : Fin d → ℝ) (pts : Fin d → A) (i : B.ι) : aeval pts (B.pull M b (B.ix i)) = aeval (refPt M b pts) (B.ψ i) := by
  unfold pull
  have h : Function.surjInv B.surj (B.ix i) = i := B.inj (Function.surjInv_eq B.surj (B.ix i))
  rw [h]
  have : ((aeval pts).comp (aeval (refPt M b (X : Fin d → MvPolynomial (Fin d) ℝ))) : MvPolynomial (Fin d) ℝ →ₐ[ℝ] A) =
      aeval (refPt M b pts) := by
    apply MvPolynomial.algHom_ext
    intro j
    simp only [AlgHom.comp_apply, aeval_X, aeval_refPt]
  exact DFunLike.congr_fun this (B.ψ i)

theorem refPt_eq (M : Matrix (Fin d) (Fin d) ℝ) (b x : Fin d → ℝ) : refPt M b x = affineApply M b x := by
  funext i
  simp [refPt, affineApply, Matrix.mulVec, dotProduct]

theorem RefBasis.pull_eval (B : RefBasis d) (M : Matrix (Fin d) (Fin d) ℝ) (b : Fin d → ℝ) (x : Fin d → ℝ) (i : B.ι) :
    eval x (B.pull M b (B.ix i)) = eval (affineApply M b x) (B.ψ i) := by
  have := B.pull_aeval M b x i
  rw [refPt_eq] at this
  simpa [coe_aeval_eq_eval] using this

theorem refPt_degree (M : Matrix (Fin d) (Fin d) ℝ) (b : Fin d → ℝ) (i : Fin d) :
    (refPt M b X i : MvPolynomial (Fin d) ℝ).totalDegree ≤ 1 := by
  unfold refPt
  refine add_degree (totalDegree_finsetSum_le fun j _ => lin_degree _ _ (X_degree j)) (c_degree _)

theorem RefBasis.pull_degree (B : RefBasis d) (M : Matrix (Fin d) (Fin d) ℝ) (b : Fin d → ℝ) (m k : ℕ)
    (hm : m < (k + d).choose d) : (B.pull M b m).totalDegree ≤ k := by
  unfold pull
  refine (totalDegree_aeval_le _ (refPt_degree M b) _).trans ((B.degree _).trans ?_)
  rw [← B.lt, Function.surjInv_eq B.surj m]; exact hm

theorem RefBasis.pull_ortho (B : RefBasis d) (v : Fin (d + 1) → Fin d → ℝ) (M : Matrix (Fin d) (Fin d) ℝ) (b : Fin d → ℝ)
    (hv : AffineIndependent ℝ v) (hM : ∀ i, M.mulVec (v i) + b = dvert d i) :
    (edgeMatrix v).det ≠ 0 ∧ ∀ m m', ∫ x in convexHull ℝ (Set.range v), eval x (B.pull M b m) * eval x (B.pull M b m') =
      if m = m' then |(edgeMatrix v).det| / 2 ^ d else 0 := by
  obtain ⟨A, a, -, h1, -⟩ := make_affine_mapping_spec (dvert d) v (dvert_independent d)
  obtain ⟨M1, b1, -, h2, h3⟩ := make_affine_mapping_spec (dvert d) (dvert d) (dvert_independent d)
  have hc : ∀ i, (M * A).mulVec (dvert d i) + (M.mulVec a + b) = dvert d i := by
    intro i
    rw [← Matrix.mulVec_mulVec, ← add_assoc, ← Matrix.mulVec_add, h1, hM]
  have e1 := h3 _ _ hc
  have e2 := h3 1 0 (by intro i; simp)
  have eM : M * A = 1 := e1.1.trans e2.1.symm
  have eb : M.mulVec a + b = 0 := e1.2.trans e2.2.symm
  have hdet : M.det * A.det = 1 := by rw [← Matrix.det_mul, eM, Matrix.det_one]
  have hA : A.det ≠ 0 := fun h => by rw [h, mul_zero] at hdet; exact zero_ne_one hdet
  have hE := det_of_map v A a h1
  refine ⟨by rw [hE]; exact mul_ne_zero (by positivity) hA, fun m m' => ?_⟩
  obtain ⟨i, rfl⟩ := B.surj m
  obtain ⟨j, rfl⟩ := B.surj m'
  rw [integral_simplex v A a h1 hA]
  have e : ∀ x, affineApply M b (affineApply A a x) = x := by
    intro x
    unfold affineApply
    rw [Matrix.mulVec_add, Matrix.mulVec_mulVec, eM, Matrix.one_mulVec, add_assoc, eb, add_zero]
  simp only [B.pull_eval, e]
  rw [B.ortho, hE]
  by_cases h : i = j
  · subst h; rw [if_pos rfl, if_pos rfl, abs_mul, abs_of_pos (by positivity : (0 : ℝ) < 2 ^ d)]; field_simp
  · rw [if_neg h, if_neg fun hh => h (B.inj hh), mul_zero]

theorem integrable_hull (v : Fin (d + 1) → Fin d → ℝ) (f : (Fin d → ℝ) → ℝ) (hf : Continuous f) :
    IntegrableOn f (convexHull ℝ (Set.range v)) :=
  hf.continuousOn.integrableOn_compact (Set.Finite.isCompact_convexHull ℝ (Set.finite_range v))

/-- Polynomials with a nonsingular diagonal Gram matrix are linearly independent. -/
theorem independent_of_ortho (v : Fin (d + 1) → Fin d → ℝ) {ι : Type} [Fintype ι] (φ : ι → MvPolynomial (Fin d) ℝ) (c : ℝ)
    (hc : c ≠ 0) (h : ∀ i j, ∫ x in convexHull ℝ (Set.range v), eval x (φ i) * eval x (φ j) = open Classical in if i = j then c else 0) :
    LinearIndependent ℝ φ := by
  classical
  rw [Fintype.linearIndependent_iff]
  intro g hg i
  have h1 : ∫ x in convexHull ℝ (Set.range v), eval x (φ i) * eval x (∑ j, g j • φ j) = g i * c := by
    have e : ∀ x, eval x (φ i) * eval x (∑ j, g j • φ j) = ∑ j, g j * (eval x (φ i) * eval x (φ j)) := by
      intro x
      simp only [map_sum, smul_eval, Finset.mul_sum]
      exact Finset.sum_congr rfl fun j _ => by ring
    simp only [e]
    rw [integral_finsetSum]
    · simp only [integral_const_mul, h]
      simp
    · intro j _
      exact (integrable_hull v _ ((φ i).continuous_eval.mul (φ j).continuous_eval)).const_mul _
  rw [hg] at h1
  simp only [map_zero, mul_zero, integral_zero] at h1
  exact (mul_eq_zero.1 h1.symm).resolve_right hc

theorem basis_of_independent (n : ℕ) (φ : Fin ((n + d).choose d) → MvPolynomial (Fin d) ℝ) (hi : LinearIndependent ℝ φ)
    (hd : ∀ i, (φ i).totalDegree ≤ n) : Submodule.span ℝ (Set.range φ) = restrictTotalDegree (Fin d) ℝ n := by
  have hfin : Module.Finite ℝ (restrictTotalDegree (Fin d) ℝ n) :=
    Module.finite_of_finrank_pos (by rw [finrank_restrictTotalDegree]; exact Nat.choose_pos (by omega))
  refine Submodule.eq_of_le_of_finrank_eq ?_ ?_
  · rw [Submodule.span_le]
    rintro _ ⟨i, rfl⟩
    exact (mem_restrictTotalDegree _ _ _).2 (hd i)
  · rw [finrank_span_eq_card hi, finrank_restrictTotalDegree, Fintype.card_fin]

theorem RefBasis.pull_basis (B : RefBasis d) (v : Fin (d + 1) → Fin d → ℝ) (M : Matrix (Fin d) (Fin d) ℝ) (b : Fin d → ℝ)
    (hv : AffineIndependent ℝ v) (hM : ∀ i, M.mulVec (v i) + b = dvert d i) (k : ℕ) :
    LinearIndependent ℝ (fun i : Fin ((k + d).choose d) => B.pull M b i) ∧
    Submodule.span ℝ (Set.range fun i : Fin ((k + d).choose d) => B.pull M b i) = restrictTotalDegree (Fin d) ℝ k := by
  obtain ⟨h0, h1⟩ := B.pull_ortho v M b hv hM
  have hi : LinearIndependent ℝ (fun i : Fin ((k + d).choose d) => B.pull M b i) := by
    refine independent_of_ortho v _ (|(edgeMatrix v).det| / 2 ^ d) (by positivity) fun i j => ?_
    rw [h1]
    simp only [Fin.ext_iff]
  exact ⟨hi, basis_of_independent k _ hi fun i => B.pull_degree M b i k i.2⟩

theorem slots_eq {A : Type} [CommRing A] {ι : Type} (ix : ι → ℕ) (hsurj : Function.Surjective ix) (r : Slots A) (N : ℕ)
    (hN : r.length = N) (f : ℕ → A) (h : ∀ i, ix i < N → r.rd (ix i) = some (f (ix i))) :
    r = (List.range N).map fun m => some (f m) := by
  apply List.ext_getElem
  · simp [hN]
  · intro m h1 h2
    obtain ⟨i, rfl⟩ := hsurj m
    have := h i (hN ▸ h1)
    unfold Slots.rd at this
    rw [List.getElem?_eq_getElem h1] at this
    simpa using this

end
end FIAT
