/-
The dimension of the Nedelec space of the first kind, and the generators from which the code builds it.
-/
import Verif.Lemmas.CurlZero
import Verif.Props.RTSpace

namespace FIAT
open MvPolynomial MeasureTheory

section
variable {D : ℕ}

/-- `dotX` as a linear map. -/
noncomputable def dotXLin (D : ℕ) : (Fin D → MvPolynomial (Fin D) ℝ) →ₗ[ℝ] MvPolynomial (Fin D) ℝ where
  toFun u := dotX u
  map_add' u w := by simp only [dotX, Pi.add_apply, mul_add, Finset.sum_add_distrib]
  map_smul' a u := by simp only [dotX, Pi.smul_apply, mul_smul_comm, Finset.smul_sum, RingHom.id_apply]

variable {v : Fin (D + 1) → Fin D → ℝ} {κ : ℝ} {φ : ℕ → MvPolynomial (Fin D) ℝ}

theorem finrank_vecP (h : OrthoSeq v κ φ) (n : ℕ) : Module.finrank ℝ (vecP D n) = D * (n + D).choose D := by
  rw [← h.vec_span n, finrank_span_eq_card (h.vec_indep n)]
  simp

theorem finite_vecP (h : OrthoSeq v κ φ) (n : ℕ) : FiniteDimensional ℝ (vecP D n) := by
  rw [← h.vec_span n]
  exact FiniteDimensional.span_of_finite ℝ (Set.finite_range _)

theorem finite_restrict (h : OrthoSeq v κ φ) (n : ℕ) : FiniteDimensional ℝ (restrictTotalDegree (Fin D) ℝ n) := by
  rw [← h.span n]
  exact FiniteDimensional.span_of_finite ℝ (Set.finite_range _)

/-- The homogeneous polynomials of degree `n + 1`. -/
theorem finrank_homogeneous (h : OrthoSeq v κ φ) (n : ℕ) :
    Module.finrank ℝ (homogeneousSubmodule (Fin D) ℝ (n + 1)) + (n + D).choose D = (n + 1 + D).choose D := by
  haveI := finite_restrict h (n + 1)
  let T : restrictTotalDegree (Fin D) ℝ (n + 1) →ₗ[ℝ] MvPolynomial (Fin D) ℝ :=
    (homogeneousComponent (n + 1)).comp (restrictTotalDegree (Fin D) ℝ (n + 1)).subtype
  have hr : LinearMap.range T = homogeneousSubmodule (Fin D) ℝ (n + 1) := by
    ext p
    constructor
    · rintro ⟨q, rfl⟩
      exact homogeneousComponent_isHomogeneous _ _
    · intro hp
      have hp' : p.IsHomogeneous (n + 1) := hp
      refine ⟨⟨p, (mem_restrictTotalDegree _ _ _).2 hp'.totalDegree_le⟩, ?_⟩
      show homogeneousComponent (n + 1) p = p
      rw [homogeneousComponent_of_mem hp', if_pos rfl]
  have hk : LinearMap.ker T = (restrictTotalDegree (Fin D) ℝ n).comap (restrictTotalDegree (Fin D) ℝ (n + 1)).subtype := by
    ext p
    rw [LinearMap.mem_ker, Submodule.mem_comap, Submodule.subtype_apply, mem_restrictTotalDegree]
    exact homogeneousComponent_low_iff ((mem_restrictTotalDegree _ _ _).1 p.2)
  have hle : restrictTotalDegree (Fin D) ℝ n ≤ restrictTotalDegree (Fin D) ℝ (n + 1) := by
    intro p hp
    rw [mem_restrictTotalDegree] at hp ⊢
    omega
  have := LinearMap.finrank_range_add_finrank_ker T
  rw [hr, hk, (Submodule.comapSubtypeEquivOfLe hle).finrank_eq, finrank_restrictTotalDegree, finrank_restrictTotalDegree] at this
  exact this

theorem nedSub_le (k : ℕ) : nedSub D k ≤ vecP D (k + 1) := fun _ hu => mem_vecP.2 (ned_dotX (mem_nedSub.1 hu)).1

/-- The dimension of the Nedelec space: `D dim P_(k+1)` less the number of monomials of degree `k + 2`. -/
theorem finrank_nedSub (h : OrthoSeq v κ φ) (k : ℕ) :
    Module.finrank ℝ (nedSub D k) + (k + 2 + D).choose D = D * (k + 1 + D).choose D + (k + 1 + D).choose D := by
  haveI := finite_vecP h (k + 1)
  let L : vecP D (k + 1) →ₗ[ℝ] MvPolynomial (Fin D) ℝ :=
    ((homogeneousComponent (k + 1 + 1)).comp (dotXLin D)).comp (vecP D (k + 1)).subtype
  have hL : ∀ u, L u = homogeneousComponent (k + 1 + 1) (dotX u.1) := fun u => rfl
  have hdeg : ∀ u : vecP D (k + 1), (dotX u.1).totalDegree ≤ k + 1 + 1 := fun u =>
    sum_degree _ _ _ fun i _ => Xmul_degree i (mem_vecP.1 u.2 i) (by omega)
  have hr : LinearMap.range L = homogeneousSubmodule (Fin D) ℝ (k + 1 + 1) := by
    ext p
    constructor
    · rintro ⟨q, rfl⟩
      exact homogeneousComponent_isHomogeneous _ _
    · intro hp
      have hp' : p.IsHomogeneous (k + 1 + 1) := hp
      have hk : ((k : ℝ) + 2) ≠ 0 := by positivity
      have hu : (fun i => C ((k : ℝ) + 2)⁻¹ * pderiv i p) ∈ vecP D (k + 1) := by
        rw [mem_vecP]
        exact fun i => Cmul_degree _ (hp'.pderiv (i := i)).totalDegree_le
      refine ⟨⟨_, hu⟩, ?_⟩
      rw [hL]
      have e : (dotX fun i => C ((k : ℝ) + 2)⁻¹ * pderiv i p) = p := by
        unfold dotX
        have : ∀ i, X i * (C ((k : ℝ) + 2)⁻¹ * pderiv i p) = C ((k : ℝ) + 2)⁻¹ * (X i * pderiv i p) := fun i => by ring
        simp only [this]
        rw [← Finset.mul_sum, hp'.sum_X_mul_pderiv, nsmul_eq_mul, ← mul_assoc]
        have e2 : ((k + 1 + 1 : ℕ) : MvPolynomial (Fin D) ℝ) = C ((k : ℝ) + 2) := by
          rw [map_add, map_natCast, map_ofNat]; push_cast; ring
        rw [e2, ← C_mul, inv_mul_cancel₀ hk, C_1, one_mul]
      rw [e, homogeneousComponent_of_mem hp', if_pos rfl]
  have hk : LinearMap.ker L = (nedSub D k).comap (vecP D (k + 1)).subtype := by
    ext u
    rw [LinearMap.mem_ker, Submodule.mem_comap, Submodule.subtype_apply, mem_nedSub, ned_iff]
    rw [hL, homogeneousComponent_low_iff (hdeg u)]
    exact ⟨fun h => ⟨mem_vecP.1 u.2, h⟩, fun h => h.2⟩
  have h1 := LinearMap.finrank_range_add_finrank_ker L
  rw [hr, hk, (Submodule.comapSubtypeEquivOfLe (nedSub_le k)).finrank_eq, finrank_vecP h] at h1
  have h2 := finrank_homogeneous h (k + 1)
  rw [show k + 1 + 1 + D = k + 2 + D by omega] at h2
  omega

/-- A linear image of `P_k` lies in `S` once that of `P_(k-1)` and of the members of degree `k` does. -/
theorem OrthoSeq.top_mem {M : Type} [AddCommGroup M] [Module ℝ M] (h : OrthoSeq v κ φ) (k : ℕ) (L : MvPolynomial (Fin D) ℝ →ₗ[ℝ] M)
    (S : Submodule ℝ M) (hlow : ∀ g, g.totalDegree + 1 ≤ k → L g ∈ S)
    (htop : ∀ i, i < (k + D).choose D - dimLower D k → L (φ (dimLower D k + i)) ∈ S)
    (g : MvPolynomial (Fin D) ℝ) (hg : g.totalDegree ≤ k) : L g ∈ S := by
  have hm : g ∈ Submodule.span ℝ (Set.range fun i : Fin ((k + D).choose D) => φ i) := by
    rw [h.span, mem_restrictTotalDegree]; exact hg
  obtain ⟨c, rfl⟩ := (Submodule.mem_span_range_iff_exists_fun ℝ).1 hm
  rw [map_sum]
  refine Submodule.sum_mem _ fun i _ => ?_
  rw [map_smul]
  refine Submodule.smul_mem _ _ ?_
  by_cases hi : (i : ℕ) < dimLower D k
  · apply hlow
    have hn : k ≠ 0 := by
      rintro rfl
      simp [dimLower] at hi
    rw [dimLower, if_neg hn] at hi
    have h1 := h.degree hi
    omega
  · have := htop ((i : ℕ) - dimLower D k) (by have := i.2; omega)
    rwa [show dimLower D k + ((i : ℕ) - dimLower D k) = i by omega] at this

end

/-- `(y q, -x q)`. -/
noncomputable def crossLin2 : MvPolynomial (Fin 2) ℝ →ₗ[ℝ] (Fin 2 → MvPolynomial (Fin 2) ℝ) where
  toFun q := ![X 1 * q, - (X 0 * q)]
  map_add' p q := by funext j; fin_cases j <;> simp <;> ring
  map_smul' a q := by funext j; fin_cases j <;> simp

/-- `w × x` (componentwise `x_(j+2) w_(j+1) - x_(j+1) w_(j+2)`). -/
noncomputable def crossLin3 : (Fin 3 → MvPolynomial (Fin 3) ℝ) →ₗ[ℝ] (Fin 3 → MvPolynomial (Fin 3) ℝ) where
  toFun w := fun j => X (j + 2) * w (j + 1) - X (j + 1) * w (j + 2)
  map_add' p q := by funext j; simp only [Pi.add_apply]; ring
  map_smul' a q := by funext j; simp only [Pi.smul_apply, RingHom.id_apply, mul_smul_comm, smul_sub]

theorem crossLin3_apply (w : Fin 3 → MvPolynomial (Fin 3) ℝ) (j : Fin 3) :
    crossLin3 w j = X (j + 2) * w (j + 1) - X (j + 1) * w (j + 2) := rfl

theorem ned2_iff {k : ℕ} {u : Fin 2 → MvPolynomial (Fin 2) ℝ} :
    IsNed k u ↔ ∃ p q, (∀ j, (p j).totalDegree ≤ k) ∧ q.totalDegree ≤ k ∧ u = p + crossLin2 q := by
  constructor
  · rintro ⟨p, A, hp, hA, ha, hu⟩
    refine ⟨p, A 0 1, hp, hA 0 1, ?_⟩
    have h00 : A 0 0 = 0 := self_eq_neg.1 (ha 0 0)
    have h11 : A 1 1 = 0 := self_eq_neg.1 (ha 1 1)
    funext j
    fin_cases j
    · simp [hu, Fin.sum_univ_two, h00, crossLin2]; ring
    · simp [hu, Fin.sum_univ_two, h11, ha 1 0, crossLin2]; ring
  · rintro ⟨p, q, hp, hq, rfl⟩
    refine ⟨p, ![![0, q], ![-q, 0]], hp, fun i j => ?_, fun i j => ?_, fun i => ?_⟩
    · fin_cases i <;> fin_cases j <;> simp [hq]
    · fin_cases i <;> fin_cases j <;> simp
    · fin_cases i
      · simp [Fin.sum_univ_two, crossLin2]; ring
      · simp [Fin.sum_univ_two, crossLin2]; ring

theorem ned3_iff {k : ℕ} {u : Fin 3 → MvPolynomial (Fin 3) ℝ} :
    IsNed k u ↔ ∃ p w, (∀ j, (p j).totalDegree ≤ k) ∧ (∀ j, (w j).totalDegree ≤ k) ∧ u = p + crossLin3 w := by
  constructor
  · rintro ⟨p, A, hp, hA, ha, hu⟩
    refine ⟨p, ![A 2 1, A 0 2, A 1 0], hp, fun j => ?_, ?_⟩
    · fin_cases j
      · exact hA 2 1
      · exact hA 0 2
      · exact hA 1 0
    have h00 : A 0 0 = 0 := self_eq_neg.1 (ha 0 0)
    have h11 : A 1 1 = 0 := self_eq_neg.1 (ha 1 1)
    have h22 : A 2 2 = 0 := self_eq_neg.1 (ha 2 2)
    funext j
    fin_cases j
    · simp [hu, Fin.sum_univ_three, h00, crossLin3, ha 0 1]; ring
    · simp [hu, Fin.sum_univ_three, h11, crossLin3, ha 1 2]; ring
    · simp [hu, Fin.sum_univ_three, h22, crossLin3, ha 2 0]; ring
  · rintro ⟨p, w, hp, hw, rfl⟩
    refine ⟨p, ![![0, - w 2, w 1], ![w 2, 0, - w 0], ![- w 1, w 0, 0]], hp, fun i j => ?_, fun i j => ?_, fun i => ?_⟩
    · fin_cases i <;> fin_cases j <;> simp [hw]
    · fin_cases i <;> fin_cases j <;> simp
    · fin_cases i
      · simp [Fin.sum_univ_three, crossLin3]; ring
      · simp [Fin.sum_univ_three, crossLin3]; ring
      · simp [Fin.sum_univ_three, crossLin3]; ring

theorem cross2_low {k : ℕ} {g : MvPolynomial (Fin 2) ℝ} (hg : g.totalDegree + 1 ≤ k) : crossLin2 g ∈ vecP 2 k := by
  rw [mem_vecP]
  intro j
  fin_cases j
  · show (X 1 * g).totalDegree ≤ k
    exact Xmul_degree 1 le_rfl (by omega)
  · show (- (X 0 * g)).totalDegree ≤ k
    rw [totalDegree_neg]
    exact Xmul_degree 0 le_rfl (by omega)

theorem cross3_low {k : ℕ} {w : Fin 3 → MvPolynomial (Fin 3) ℝ} (hw : ∀ j, (w j).totalDegree + 1 ≤ k) : crossLin3 w ∈ vecP 3 k := by
  rw [mem_vecP]
  intro j
  have h1 := hw (j + 1)
  have h2 := hw (j + 2)
  exact pdeg_sub (Xmul_degree _ le_rfl (by omega)) (Xmul_degree _ le_rfl (by omega))

/-- The generators of the two-dimensional space. -/
theorem ned2_span {v : Fin 3 → Fin 2 → ℝ} {κ : ℝ} {φ : ℕ → MvPolynomial (Fin 2) ℝ} (h : OrthoSeq v κ φ) (k : ℕ)
    (G : Set (Fin 2 → MvPolynomial (Fin 2) ℝ))
    (hG : Submodule.span ℝ G = vecP 2 k ⊔ Submodule.span ℝ
      {u | ∃ i, i < (k + 2).choose 2 - dimLower 2 k ∧ u = crossLin2 (φ (dimLower 2 k + i))}) :
    Submodule.span ℝ G = nedSub 2 k := by
  rw [hG]
  have hlow := dimLower_le (D := 2) k
  apply le_antisymm
  · rw [sup_le_iff]
    constructor
    · intro u hu
      exact ned2_iff.2 ⟨u, 0, mem_vecP.1 hu, by simp, by simp⟩
    · rw [Submodule.span_le]
      rintro _ ⟨i, hi, rfl⟩
      have hd : (φ (dimLower 2 k + i)).totalDegree ≤ k := h.degree (by omega)
      exact ned2_iff.2 ⟨0, φ (dimLower 2 k + i), by simp, hd, by simp⟩
  · intro u hu
    obtain ⟨p, q, hp, hq, rfl⟩ := ned2_iff.1 (mem_nedSub.1 hu)
    refine Submodule.add_mem _ (Submodule.mem_sup_left (mem_vecP.2 hp)) ?_
    refine h.top_mem k crossLin2 _ (fun g hg => Submodule.mem_sup_left (cross2_low hg)) (fun i hi => ?_) q hq
    exact Submodule.mem_sup_right (Submodule.subset_span ⟨i, hi, rfl⟩)

/-- The generators of the three-dimensional space. -/
theorem ned3_span {v : Fin 4 → Fin 3 → ℝ} {κ : ℝ} {φ : ℕ → MvPolynomial (Fin 3) ℝ} (h : OrthoSeq v κ φ) (k : ℕ)
    (G : Set (Fin 3 → MvPolynomial (Fin 3) ℝ))
    (hG : Submodule.span ℝ G = vecP 3 k ⊔ Submodule.span ℝ
      {u | ∃ (p : Fin 3) (i : ℕ), i < (k + 3).choose 3 - dimLower 3 k ∧ u = crossLin3 (unitField p (φ (dimLower 3 k + i)))}) :
    Submodule.span ℝ G = nedSub 3 k := by
  rw [hG]
  have hlow := dimLower_le (D := 3) k
  have hun : ∀ (p : Fin 3) (g : MvPolynomial (Fin 3) ℝ) (j : Fin 3), (unitField p g j).totalDegree ≤ g.totalDegree := by
    intro p g j
    unfold unitField
    by_cases hj : j = p
    · subst hj; rw [Pi.single_eq_same]
    · rw [Pi.single_eq_of_ne hj]; simp
  apply le_antisymm
  · rw [sup_le_iff]
    constructor
    · intro u hu
      exact ned3_iff.2 ⟨u, 0, mem_vecP.1 hu, by simp, by simp⟩
    · rw [Submodule.span_le]
      rintro _ ⟨p, i, hi, rfl⟩
      have hd : (φ (dimLower 3 k + i)).totalDegree ≤ k := h.degree (by omega)
      exact ned3_iff.2 ⟨0, unitField p (φ (dimLower 3 k + i)), by simp, fun j => (hun p _ j).trans hd, by simp⟩
  · intro u hu
    obtain ⟨p, w, hp, hw, rfl⟩ := ned3_iff.1 (mem_nedSub.1 hu)
    refine Submodule.add_mem _ (Submodule.mem_sup_left (mem_vecP.2 hp)) ?_
    have e : w = ∑ j, unitField j (w j) := by
      funext i
      rw [Finset.sum_apply, Finset.sum_eq_single i]
      · simp [unitField]
      · intro b _ hb; simp [unitField, Pi.single_eq_of_ne (Ne.symm hb)]
      · simp
    rw [e, map_sum]
    refine Submodule.sum_mem _ fun j _ => ?_
    refine h.top_mem k (crossLin3.comp (LinearMap.single ℝ (fun _ : Fin 3 => MvPolynomial (Fin 3) ℝ) j)) _
      (fun g hg => Submodule.mem_sup_left (cross3_low fun i => ?_)) (fun i hi => ?_) (w j) (hw j)
    · exact (Nat.add_le_add_right (hun j g i) 1).trans hg
    · exact Submodule.mem_sup_right (Submodule.subset_span ⟨j, i, hi, rfl⟩)

end FIAT
