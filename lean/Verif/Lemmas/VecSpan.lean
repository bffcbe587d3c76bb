/-
Coefficient rows of vector-valued polynomial sets as fields of polynomials; the projection computed by quadrature; a basis of
the Raviart-Thomas space.
-/
import Verif.Lemmas.Union
import Verif.Lemmas.RTCore
import Verif.Props.Expansions

namespace FIAT
open MvPolynomial MeasureTheory

section
variable {D : ℕ}

/-- The vector field of a row of coefficients. -/
noncomputable def rowField (φ : ℕ → MvPolynomial (Fin D) ℝ) (N : ℕ) :
    (Fin D → Fin N → ℝ) →ₗ[ℝ] (Fin D → MvPolynomial (Fin D) ℝ) where
  toFun r j := ∑ l : Fin N, r j l • φ l
  map_add' r r' := by
    funext j
    simp only [Pi.add_apply, add_smul, Finset.sum_add_distrib]
  map_smul' a r := by
    funext j
    simp only [Pi.smul_apply, smul_eq_mul, mul_smul, Finset.smul_sum, RingHom.id_apply]

theorem rowField_apply (φ : ℕ → MvPolynomial (Fin D) ℝ) (N : ℕ) (r : Fin D → Fin N → ℝ) (j : Fin D) :
    rowField φ N r j = ∑ l : Fin N, r j l • φ l := rfl

theorem rowField_injective {φ : ℕ → MvPolynomial (Fin D) ℝ} {N : ℕ} (h : LinearIndependent ℝ fun i : Fin N => φ i) :
    Function.Injective (rowField φ N) := by
  rw [← LinearMap.ker_eq_bot, LinearMap.ker_eq_bot']
  intro r hr
  funext j l
  exact Fintype.linearIndependent_iff.1 h (r j) (by simpa [rowField_apply] using congrFun hr j) l

/-- The fields of the rows returned by `polynomial_set_union_normalized`. -/
theorem union_fields {φ : ℕ → MvPolynomial (Fin D) ℝ} {N : ℕ} (hφ : LinearIndependent ℝ fun i : Fin N => φ i)
    (svd : List (Fin D → Fin N → ℝ) → List ℝ × List (Fin D → Fin N → ℝ))
    (A B : List (Fin D → Fin N → ℝ)) (h : IsSVD (A ++ B) (svd (A ++ B))) (hg : SvdGap (svd (A ++ B)).1) :
    Submodule.span ℝ (Set.range fun i : Fin (unionRows svd A B).length => rowField φ N ((unionRows svd A B).get i)) =
      Submodule.span ℝ (rowField φ N '' {x | x ∈ A ++ B}) ∧
    LinearIndependent ℝ (fun i : Fin (unionRows svd A B).length => rowField φ N ((unionRows svd A B).get i)) := by
  obtain ⟨h1, h2⟩ := union_rows_span svd A B h hg
  constructor
  · rw [← Submodule.map_span, ← h1, Submodule.map_span]
    congr 1
    ext f
    simp only [Set.mem_range, Set.mem_image, Set.mem_ofPred_eq]
    constructor
    · rintro ⟨i, rfl⟩; exact ⟨_, List.get_mem _ _, rfl⟩
    · rintro ⟨x, hx, rfl⟩
      obtain ⟨i, hi⟩ := List.get_of_mem hx
      exact ⟨i, by rw [hi]⟩
  · exact h2.map' (rowField φ N) (LinearMap.ker_eq_bot.2 (rowField_injective hφ))

/-- The sequence is an orthogonal hierarchical basis on the simplex `v`, with squared norms `κ`. -/
structure OrthoSeq (v : Fin (D + 1) → Fin D → ℝ) (κ : ℝ) (φ : ℕ → MvPolynomial (Fin D) ℝ) : Prop where
  indep : ∀ n, LinearIndependent ℝ fun i : Fin ((n + D).choose D) => φ i
  span : ∀ n, Submodule.span ℝ (Set.range fun i : Fin ((n + D).choose D) => φ i) = restrictTotalDegree (Fin D) ℝ n
  ortho : ∀ i j, ∫ x in convexHull ℝ (Set.range v), eval x (φ i) * eval x (φ j) = if i = j then κ else 0
  pos : 0 < κ

theorem OrthoSeq.degree {v : Fin (D + 1) → Fin D → ℝ} {κ : ℝ} {φ : ℕ → MvPolynomial (Fin D) ℝ} (h : OrthoSeq v κ φ)
    {n i : ℕ} (hi : i < (n + D).choose D) : (φ i).totalDegree ≤ n := by
  rw [← mem_restrictTotalDegree, ← h.span n]
  exact Submodule.subset_span ⟨⟨i, hi⟩, rfl⟩

/-- Every polynomial of degree at most `n` is its projection. -/
theorem OrthoSeq.project {v : Fin (D + 1) → Fin D → ℝ} {κ : ℝ} {φ : ℕ → MvPolynomial (Fin D) ℝ} (h : OrthoSeq v κ φ)
    (n : ℕ) (g : MvPolynomial (Fin D) ℝ) (hg : g.totalDegree ≤ n) :
    ∑ l : Fin ((n + D).choose D), (∫ x in convexHull ℝ (Set.range v), eval x (φ l * g)) • φ l = κ • g := by
  have hm : g ∈ Submodule.span ℝ (Set.range fun i : Fin ((n + D).choose D) => φ i) := by
    rw [h.span, mem_restrictTotalDegree]; exact hg
  obtain ⟨c, hc⟩ := (Submodule.mem_span_range_iff_exists_fun ℝ).1 hm
  have key : ∀ l : Fin ((n + D).choose D), ∫ x in convexHull ℝ (Set.range v), eval x (φ l * g) = κ * c l := by
    intro l
    have e : ∀ x, eval x (φ l * g) = ∑ i : Fin ((n + D).choose D), c i * (eval x (φ l) * eval x (φ i)) := by
      intro x
      rw [map_mul, ← hc, map_sum, Finset.mul_sum]
      exact Finset.sum_congr rfl fun i _ => by rw [smul_eq_C_mul, map_mul, eval_C]; ring
    simp only [e]
    have hint : ∀ i : Fin ((n + D).choose D), IntegrableOn (fun x => eval x (φ l) * eval x (φ i)) (convexHull ℝ (Set.range v)) :=
      fun i => integrable_hull v _ ((φ l).continuous_eval.mul (φ i).continuous_eval)
    rw [integral_finsetSum _ fun i _ => (hint i).const_mul _]
    simp only [integral_const_mul, h.ortho, mul_ite, mul_zero]
    rw [Finset.sum_eq_single l]
    · rw [if_pos rfl, mul_comm]
    · intro b _ hb; exact if_neg (fun hh => hb (Fin.ext hh.symm))
    · simp
  rw [← hc, Finset.smul_sum]
  exact Finset.sum_congr rfl fun l _ => by rw [hc, key, mul_smul]

/-- Every nondegenerate simplex has such a sequence, tabulated by the expansion sets. -/
theorem orthoSeq_exists (hD : D = 1 ∨ D = 2 ∨ D = 3) (v : Fin (D + 1) → Fin D → ℝ) (hv : AffineIndependent ℝ v)
    (hdet : (edgeMatrix v).det ≠ 0) :
    ∃ φ, (∀ n, (D = 1 ∨ n ≠ 0) → ExpTabulates D n v φ) ∧ OrthoSeq v (|(edgeMatrix v).det| / 2 ^ D) φ := by
  obtain ⟨φ, h1, h2, h3⟩ := expansion_table_spec D hD v hv
  exact ⟨φ, h1, fun n => (h2 n n le_rfl).1, fun n => (h2 n n le_rfl).2, h3, by positivity⟩

/-- The Raviart-Thomas space as a subspace. -/
noncomputable def rtSub (D k : ℕ) : Submodule ℝ (Fin D → MvPolynomial (Fin D) ℝ) where
  carrier := {v | IsRT k v}
  add_mem' := by
    rintro u v ⟨p, q, hp, hq, h⟩ ⟨p', q', hp', hq', h'⟩
    refine ⟨p + p', q + q', fun j => (totalDegree_add _ _).trans (max_le (hp j) (hp' j)),
      (totalDegree_add _ _).trans (max_le hq hq'), fun j => ?_⟩
    rw [Pi.add_apply, h, h', Pi.add_apply]; ring
  zero_mem' := ⟨0, 0, by simp, by simp, by simp⟩
  smul_mem' := by
    rintro a v ⟨p, q, hp, hq, h⟩
    refine ⟨a • p, a • q, fun j => (totalDegree_smul_le _ _).trans (hp j), (totalDegree_smul_le _ _).trans hq, fun j => ?_⟩
    rw [Pi.smul_apply, h, Pi.smul_apply, smul_add, mul_smul_comm]

theorem mem_rtSub {k : ℕ} {v : Fin D → MvPolynomial (Fin D) ℝ} : v ∈ rtSub D k ↔ IsRT k v := Iff.rfl

/-- `e_p φ_k`. -/
noncomputable def unitField (p : Fin D) (g : MvPolynomial (Fin D) ℝ) : Fin D → MvPolynomial (Fin D) ℝ := Pi.single p g
/-- `x q`. -/
noncomputable def xField (q : MvPolynomial (Fin D) ℝ) : Fin D → MvPolynomial (Fin D) ℝ := fun j => X j * q

/-- `P_n^D`. -/
noncomputable def vecP (D n : ℕ) : Submodule ℝ (Fin D → MvPolynomial (Fin D) ℝ) :=
  Submodule.pi Set.univ fun _ => restrictTotalDegree (Fin D) ℝ n

theorem mem_vecP {n : ℕ} {v : Fin D → MvPolynomial (Fin D) ℝ} : v ∈ vecP D n ↔ ∀ j, (v j).totalDegree ≤ n := by
  simp [vecP, Submodule.mem_pi, mem_restrictTotalDegree]

variable {v : Fin (D + 1) → Fin D → ℝ} {κ : ℝ} {φ : ℕ → MvPolynomial (Fin D) ℝ}

theorem OrthoSeq.vec_span (h : OrthoSeq v κ φ) (n : ℕ) :
    Submodule.span ℝ (Set.range fun t : Fin D × Fin ((n + D).choose D) => unitField t.1 (φ t.2)) = vecP D n := by
  apply le_antisymm
  · rw [Submodule.span_le]
    rintro _ ⟨t, rfl⟩
    rw [SetLike.mem_coe, mem_vecP]
    intro j
    beta_reduce
    unfold unitField
    by_cases hj : j = t.1
    · subst hj; rw [Pi.single_eq_same]; exact h.degree t.2.2
    · rw [Pi.single_eq_of_ne hj]; simp
  · intro w hw
    rw [mem_vecP] at hw
    have hc : ∀ j, ∃ c : Fin ((n + D).choose D) → ℝ, ∑ i, c i • φ i = w j := by
      intro j
      apply (Submodule.mem_span_range_iff_exists_fun ℝ).1
      rw [h.span, mem_restrictTotalDegree]; exact hw j
    choose c hc using hc
    have : w = ∑ j, ∑ i, c j i • unitField j (φ i) := by
      funext j'
      rw [Finset.sum_apply, Finset.sum_eq_single j']
      · rw [Finset.sum_apply, ← hc j']
        refine Finset.sum_congr rfl fun i _ => ?_
        simp [unitField]
      · intro b _ hb
        rw [Finset.sum_apply]
        refine Finset.sum_eq_zero fun i _ => ?_
        simp [unitField, Pi.single_eq_of_ne (Ne.symm hb)]
      · simp
    rw [this]
    exact Submodule.sum_mem _ fun j _ => Submodule.sum_mem _ fun i _ => Submodule.smul_mem _ _
      (Submodule.subset_span ⟨(j, i), rfl⟩)

theorem OrthoSeq.vec_indep (h : OrthoSeq v κ φ) (n : ℕ) :
    LinearIndependent ℝ (fun t : Fin D × Fin ((n + D).choose D) => unitField t.1 (φ t.2)) := by
  rw [Fintype.linearIndependent_iff]
  intro g hg t
  have h1 := congrFun hg t.1
  rw [Fintype.sum_prod_type, Finset.sum_apply, Finset.sum_eq_single t.1] at h1
  · rw [Finset.sum_apply] at h1
    refine Fintype.linearIndependent_iff.1 (h.indep n) (fun i => g (t.1, i)) ?_ t.2
    rw [← show (0 : Fin D → MvPolynomial (Fin D) ℝ) t.1 = 0 from rfl, ← h1]
    exact Finset.sum_congr rfl fun i _ => by simp [unitField]
  · intro b _ hb
    rw [Finset.sum_apply]
    refine Finset.sum_eq_zero fun i _ => ?_
    simp [unitField, Pi.single_eq_of_ne (Ne.symm hb)]
  · simp

/-- The dimension of `P_(n-1)`. -/
def dimLower (D n : ℕ) : ℕ := if n = 0 then 0 else (n - 1 + D).choose D

theorem dimLower_le (n : ℕ) : dimLower D n ≤ (n + D).choose D := by
  unfold dimLower
  split_ifs
  · exact Nat.zero_le _
  · exact Nat.choose_le_choose _ (by omega)

/-- Members number `dim P_(n-1)`, ..., `dim P_n - 1`: a combination of them that has degree less than `n` is zero. -/
theorem OrthoSeq.top (h : OrthoSeq v κ φ) (n : ℕ) (c : Fin ((n + D).choose D - dimLower D n) → ℝ)
    (hc : (∑ i, c i • φ (dimLower D n + i) = 0) ∨ (∑ i, c i • φ (dimLower D n + i)).totalDegree + 1 ≤ n) : c = 0 := by
  have hle := dimLower_le (D := D) n
  -- the combination lies in the span of the lower members
  have hlow : ∃ a : Fin (dimLower D n) → ℝ, ∑ i, a i • φ i = ∑ i, c i • φ (dimLower D n + i) := by
    rcases hc with hc | hc
    · exact ⟨0, by rw [hc]; simp⟩
    · have hn : n ≠ 0 := by omega
      have e : dimLower D n = (n - 1 + D).choose D := by rw [dimLower, if_neg hn]
      have hm : (∑ i, c i • φ (dimLower D n + i)) ∈ Submodule.span ℝ (Set.range fun i : Fin ((n - 1 + D).choose D) => φ i) := by
        rw [h.span, mem_restrictTotalDegree]; omega
      obtain ⟨a, ha⟩ := (Submodule.mem_span_range_iff_exists_fun ℝ).1 hm
      refine ⟨fun i => a (i.cast e), ?_⟩
      rw [← ha]
      exact Fintype.sum_equiv (finCongr e) _ _ fun i => rfl
  obtain ⟨a, ha⟩ := hlow
  have hli := Fintype.linearIndependent_iff.1 (h.indep n)
  let f : ℕ → ℝ := fun i => if hi : i < dimLower D n then a ⟨i, hi⟩
    else if hi2 : i - dimLower D n < (n + D).choose D - dimLower D n then - c ⟨i - dimLower D n, hi2⟩ else 0
  have hsum : ∑ i : Fin ((n + D).choose D), f i • φ i = 0 := by
    rw [Fin.sum_univ_eq_sum_range (fun i => f i • φ i)]
    conv_lhs => rw [show (n + D).choose D = dimLower D n + ((n + D).choose D - dimLower D n) by omega]
    rw [Finset.sum_range_add]
    have e1 : ∑ i ∈ Finset.range (dimLower D n), f i • φ i = ∑ i, a i • φ i := by
      rw [← Fin.sum_univ_eq_sum_range (fun i => f i • φ i)]
      exact Finset.sum_congr rfl fun i _ => by simp [f]
    have e2 : ∑ i ∈ Finset.range ((n + D).choose D - dimLower D n), f (dimLower D n + i) • φ (dimLower D n + i) =
        - ∑ i, c i • φ (dimLower D n + i) := by
      rw [← Fin.sum_univ_eq_sum_range (fun i => f (dimLower D n + i) • φ (dimLower D n + i)), ← Finset.sum_neg_distrib]
      refine Finset.sum_congr rfl fun i _ => ?_
      have : f (dimLower D n + i) = - c i := by simp [f]
      rw [this, neg_smul]
    rw [e1, e2, ha, add_neg_cancel]
  have hz := hli (fun i => f i) hsum
  funext i
  have := hz ⟨dimLower D n + i, by have := i.2; omega⟩
  simpa [f] using this

/-- `x q` has components of degree at most `n` only if `q` has degree less than `n`. -/
theorem degree_of_xField (hD : 0 < D) (q : MvPolynomial (Fin D) ℝ) (n : ℕ) (hx : xField q ∈ vecP D n) :
    q = 0 ∨ q.totalDegree + 1 ≤ n := by
  rw [mem_vecP] at hx
  by_cases hq : q = 0
  · exact Or.inl hq
  · right
    have := hx ⟨0, hD⟩
    unfold xField at this
    rw [totalDegree_mul_of_isDomain (X_ne_zero _) hq, totalDegree_X] at this
    omega

/-- The basis of the Raviart-Thomas space from which `RTSpace` is built. -/
noncomputable def rtBasis (D n : ℕ) (φ : ℕ → MvPolynomial (Fin D) ℝ) :
    (Fin D × Fin ((n + D).choose D)) ⊕ Fin ((n + D).choose D - dimLower D n) → Fin D → MvPolynomial (Fin D) ℝ :=
  Sum.elim (fun t => unitField t.1 (φ t.2)) (fun i => xField (φ (dimLower D n + i)))

theorem xField_sum {ι : Type} (s : Finset ι) (c : ι → ℝ) (g : ι → MvPolynomial (Fin D) ℝ) :
    ∑ i ∈ s, c i • xField (g i) = xField (∑ i ∈ s, c i • g i) := by
  funext j
  rw [Finset.sum_apply]
  unfold xField
  rw [Finset.mul_sum]
  exact Finset.sum_congr rfl fun i _ => by rw [Pi.smul_apply, mul_smul_comm]

theorem rtBasis_indep (hD : 0 < D) (h : OrthoSeq v κ φ) (n : ℕ) : LinearIndependent ℝ (rtBasis D n φ) := by
  refine LinearIndependent.sum_type (h.vec_indep n) ?_ ?_
  · rw [Fintype.linearIndependent_iff]
    intro c hc
    rw [xField_sum] at hc
    have := h.top n c ((degree_of_xField hD _ n (by rw [hc]; exact Submodule.zero_mem _)))
    intro i; rw [this]; rfl
  · rw [h.vec_span, Submodule.disjoint_def]
    intro w hw hw2
    obtain ⟨c, hc⟩ := (Submodule.mem_span_range_iff_exists_fun ℝ).1 hw2
    rw [xField_sum] at hc
    have := h.top n c (degree_of_xField hD _ n (by rw [hc]; exact hw))
    rw [← hc, this]
    funext j; simp [xField]

theorem rtBasis_span (hD : 0 < D) (h : OrthoSeq v κ φ) (n : ℕ) : Submodule.span ℝ (Set.range (rtBasis D n φ)) = rtSub D n := by
  rw [rtBasis, Set.Sum.elim_range, Submodule.span_union, h.vec_span]
  apply le_antisymm
  · rw [sup_le_iff]
    constructor
    · intro w hw
      exact ⟨w, 0, mem_vecP.1 hw, by simp, by simp⟩
    · rw [Submodule.span_le]
      rintro _ ⟨i, rfl⟩
      refine ⟨0, φ (dimLower D n + i), by simp, h.degree (by have := i.2; have := dimLower_le (D := D) n; omega), fun j => ?_⟩
      simp [xField]
  · rintro w ⟨p, q, hp, hq, hw⟩
    have hw' : w = p + xField q := by funext j; rw [hw]; rfl
    have hm : q ∈ Submodule.span ℝ (Set.range fun i : Fin ((n + D).choose D) => φ i) := by
      rw [h.span, mem_restrictTotalDegree]; exact hq
    obtain ⟨c, hc⟩ := (Submodule.mem_span_range_iff_exists_fun ℝ).1 hm
    rw [hw', ← hc, ← xField_sum]
    refine Submodule.add_mem _ (Submodule.mem_sup_left (mem_vecP.2 hp)) (Submodule.sum_mem _ fun i _ => Submodule.smul_mem _ _ ?_)
    by_cases hi : (i : ℕ) < dimLower D n
    · apply Submodule.mem_sup_left
      rw [mem_vecP]
      intro j
      have hn : n ≠ 0 := by
        rintro rfl
        simp [dimLower] at hi
      rw [dimLower, if_neg hn] at hi
      have h1 := h.degree hi
      refine (totalDegree_mul _ _).trans ?_
      rw [totalDegree_X]; omega
    · apply Submodule.mem_sup_right
      refine Submodule.subset_span ⟨⟨(i : ℕ) - dimLower D n, by have := i.2; omega⟩, ?_⟩
      simp only
      congr 2
      omega

theorem finrank_rtSub (hD : 0 < D) (h : OrthoSeq v κ φ) (n : ℕ) :
    Module.finrank ℝ (rtSub D n) = D * (n + D).choose D + ((n + D).choose D - dimLower D n) := by
  rw [← rtBasis_span hD h n, finrank_span_eq_card (rtBasis_indep hD h n)]
  simp

end
end FIAT
