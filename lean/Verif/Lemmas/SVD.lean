/-
Singular value decompositions exist, and a lower bound on the rows gives the gap (used to show that the hypotheses of the C23
theorems can be met).
-/
import Verif.Lemmas.Union
import Mathlib.Analysis.InnerProductSpace.Spectrum
import Mathlib.Analysis.InnerProductSpace.PiL2

namespace FIAT
section
variable {D N : ℕ}

/-- A coefficient row as a vector. -/
private noncomputable def toE (r : Fin D → Fin N → ℝ) : EuclideanSpace ℝ (Fin D × Fin N) := WithLp.toLp 2 fun p => r p.1 p.2

private theorem inner_toE (r r' : Fin D → Fin N → ℝ) : inner ℝ (toE r) (toE r') = ∑ c, ∑ l, r c l * r' c l := by
  rw [PiLp.inner_apply, Fintype.sum_prod_type]
  refine Finset.sum_congr rfl fun c _ => Finset.sum_congr rfl fun l _ => ?_
  simp [toE, mul_comm]

private noncomputable def ofE (x : EuclideanSpace ℝ (Fin D × Fin N)) : Fin D → Fin N → ℝ := fun c l => x (c, l)

private theorem toE_ofE (x : EuclideanSpace ℝ (Fin D × Fin N)) : toE (ofE x) = x := by
  ext p; rfl

private theorem ofE_toE (r : Fin D → Fin N → ℝ) : ofE (toE r) = r := rfl

private theorem ofE_sum {ι : Type} (s : Finset ι) (c : ι → ℝ) (f : ι → EuclideanSpace ℝ (Fin D × Fin N)) :
    ofE (∑ i ∈ s, c i • f i) = ∑ i ∈ s, c i • ofE (f i) := by
  funext a b
  simp [ofE, Finset.sum_apply]

/-- `x ↦ ∑ <A_a, x> A_a`. -/
private noncomputable def gramMap {n : ℕ} (A : Fin n → EuclideanSpace ℝ (Fin D × Fin N)) :
    EuclideanSpace ℝ (Fin D × Fin N) →ₗ[ℝ] EuclideanSpace ℝ (Fin D × Fin N) where
  toFun x := ∑ a, inner ℝ (A a) x • A a
  map_add' x y := by simp [inner_add_right, add_smul, Finset.sum_add_distrib]
  map_smul' c x := by simp [inner_smul_right, mul_smul, Finset.smul_sum]

private theorem gramMap_inner {n : ℕ} (A : Fin n → EuclideanSpace ℝ (Fin D × Fin N)) (x y) :
    inner ℝ (gramMap A x) y = ∑ a, inner ℝ (A a) x * inner ℝ (A a) y := by
  change inner ℝ (∑ a, inner ℝ (A a) x • A a) y = _
  rw [sum_inner]
  exact Finset.sum_congr rfl fun a _ => by rw [real_inner_smul_left]

private theorem gramMap_symm {n : ℕ} (A : Fin n → EuclideanSpace ℝ (Fin D × Fin N)) : (gramMap A).IsSymmetric := by
  intro x y
  rw [gramMap_inner, real_inner_comm, gramMap_inner]
  exact Finset.sum_congr rfl fun a _ => mul_comm _ _

/-- Every matrix has a singular value decomposition. -/
theorem svd_exists (A : List (Fin D → Fin N → ℝ)) : ∃ r, IsSVD A r := by
  set n := A.length with hn
  let Av : Fin n → EuclideanSpace ℝ (Fin D × Fin N) := fun a => toE (A.get a)
  have hfr : Module.finrank ℝ (EuclideanSpace ℝ (Fin D × Fin N)) = D * N := by simp
  have hT := gramMap_symm Av
  let lam : Fin (D * N) → ℝ := hT.eigenvalues hfr
  let b : OrthonormalBasis (Fin (D * N)) ℝ (EuclideanSpace ℝ (Fin D × Fin N)) := hT.eigenvectorBasis hfr
  have hlam : ∀ i j, ∑ a, inner ℝ (Av a) (b i) * inner ℝ (Av a) (b j) = if i = j then lam i else 0 := by
    intro i j
    rw [← gramMap_inner, hT.apply_eigenvectorBasis hfr i]
    rw [real_inner_smul_left, orthonormal_iff_ite.1 b.orthonormal i j]
    simp [lam]
  have hpos : ∀ i, 0 ≤ lam i := by
    intro i
    have := hlam i i
    rw [if_pos rfl] at this
    rw [← this]
    exact Finset.sum_nonneg fun a _ => mul_self_nonneg _
  have hzero : ∀ i : Fin (D * N), n ≤ i → lam i = 0 := by
    intro i hi
    by_contra hne
    have hall : ∀ j : Fin (i + 1 : ℕ), lam (⟨j, by have := i.2; have := j.2; omega⟩ : Fin (D * N)) ≠ 0 := by
      intro j h0
      have := hT.eigenvalues_antitone hfr (show (⟨j, by have := i.2; have := j.2; omega⟩ : Fin (D * N)) ≤ i from
        Fin.le_def.2 (by have := j.2; simp only; omega))
      have h1 : lam i ≤ lam ⟨j, by have := i.2; have := j.2; omega⟩ := this
      rw [h0] at h1
      exact hne (le_antisymm h1 (hpos i))
    have hli : LinearIndependent ℝ fun (j : Fin (i + 1 : ℕ)) => (fun a : Fin n => inner ℝ (Av a)
        (b ⟨j, by have := i.2; have := j.2; omega⟩) : Fin n → ℝ) := by
      rw [Fintype.linearIndependent_iff]
      intro c hc j
      have h2 : ∑ a, (∑ j' : Fin (i + 1 : ℕ), c j' • (fun a : Fin n => inner ℝ (Av a)
        (b ⟨j', by have := i.2; have := j'.2; omega⟩) : Fin n → ℝ)) a * inner ℝ (Av a) (b ⟨j, by have := i.2; have := j.2; omega⟩) = 0 := by
        rw [hc]; simp
      simp only [Finset.sum_apply, Pi.smul_apply, smul_eq_mul, Finset.sum_mul] at h2
      rw [Finset.sum_comm] at h2
      simp only [mul_assoc, ← Finset.mul_sum, hlam] at h2
      rw [Finset.sum_eq_single j] at h2
      · rw [if_pos rfl] at h2
        exact (mul_eq_zero.1 h2).resolve_right (hall j)
      · intro j' _ hj'
        rw [if_neg (fun h => hj' (Fin.ext (Fin.mk.inj h))), mul_zero]
      · simp
    have := hli.fintype_card_le_finrank
    simp at this
    omega
  let q := min n (D * N)
  let σ : List ℝ := List.ofFn fun i : Fin q => Real.sqrt (lam ⟨i, lt_of_lt_of_le i.2 (min_le_right _ _)⟩)
  let V : List (Fin D → Fin N → ℝ) := List.ofFn fun i : Fin (D * N) => ofE (b i)
  have hσl : σ.length = q := List.length_ofFn ..
  have hV : ∀ i (h : i < D * N), V.getD i 0 = ofE (b ⟨i, h⟩) := by
    intro i h
    rw [List.getD_eq_getElem _ _ (by simpa [V] using h)]
    simp only [V, List.getElem_ofFn]
  have hσ : ∀ i (h : i < q), σ.getD i 0 = Real.sqrt (lam ⟨i, lt_of_lt_of_le h (min_le_right _ _)⟩) := by
    intro i h
    rw [List.getD_eq_getElem _ _ (by rw [hσl]; exact h)]
    simp only [σ, List.getElem_ofFn]
  refine ⟨(σ, V), ⟨?_, ?_, hσl, by simp [V], ?_, ?_⟩⟩
  · intro s hs
    obtain ⟨i, rfl⟩ := (List.mem_ofFn' _ _).1 hs
    exact Real.sqrt_nonneg _
  · rw [List.pairwise_ofFn]
    intro i j hij
    exact Real.sqrt_le_sqrt (hT.eigenvalues_antitone hfr (Fin.le_def.2 (Fin.lt_def.1 hij).le))
  · intro i j hi hj
    change ∑ c, ∑ l, V.getD i 0 c l * V.getD j 0 c l = _
    rw [hV i hi, hV j hj, ← inner_toE, toE_ofE, toE_ofE, orthonormal_iff_ite.1 b.orthonormal]
    simp
  · refine ⟨fun a i => if h : a < n ∧ i < D * N then inner ℝ (Av ⟨a, h.1⟩) (b ⟨i, h.2⟩) / Real.sqrt (lam ⟨i, h.2⟩) else 0, ?_, ?_⟩
    · intro a ha
      have e : Av ⟨a, ha⟩ = ∑ i, inner ℝ (Av ⟨a, ha⟩) (b i) • b i := by
        conv_lhs => rw [← b.sum_repr (Av ⟨a, ha⟩)]
        refine Finset.sum_congr rfl fun i _ => ?_
        rw [b.repr_apply_apply, real_inner_comm]
      have hA : A.getD a 0 = ofE (Av ⟨a, ha⟩) := by
        rw [List.getD_eq_getElem _ _ ha]; rfl
      rw [hA, e, ofE_sum]
      change _ = ∑ i ∈ Finset.range σ.length, _
      rw [hσl]
      have hterm : ∀ i : Fin (D * N), lam i = 0 → inner ℝ (Av ⟨a, ha⟩) (b i) = 0 := by
        intro i hi
        have := hlam i i
        rw [if_pos rfl, hi, Finset.sum_eq_zero_iff_of_nonneg fun _ _ => mul_self_nonneg _] at this
        exact mul_self_eq_zero.1 (this _ (Finset.mem_univ _))
      have hs1 : ∑ i, inner ℝ (Av ⟨a, ha⟩) (b i) • ofE (b i) = ∑ i ∈ Finset.range (D * N),
          if h : i < D * N then inner ℝ (Av ⟨a, ha⟩) (b ⟨i, h⟩) • ofE (b ⟨i, h⟩) else 0 := by
        rw [Finset.sum_range]
        refine Finset.sum_congr rfl fun i _ => ?_
        rw [dif_pos i.2]
      rw [hs1, ← Finset.sum_subset (Finset.range_subset_range.2 (min_le_right n (D * N) : q ≤ D * N))]
      · refine Finset.sum_congr rfl fun i hi => ?_
        have hiq : i < q := Finset.mem_range.1 hi
        have hi' : i < D * N := lt_of_lt_of_le hiq (min_le_right _ _)
        rw [dif_pos hi']
        beta_reduce
        rw [dif_pos ⟨ha, hi'⟩]
        change _ = _ • V.getD i 0
        rw [hV i hi']
        change _ = (_ * σ.getD i 0) • _
        rw [hσ i hiq]
        congr 1
        by_cases h0 : lam ⟨i, hi'⟩ = 0
        · rw [hterm _ h0]; simp
        · rw [div_mul_cancel₀]
          exact (Real.sqrt_pos.2 (lt_of_le_of_ne (hpos _) (Ne.symm h0))).ne'
      · intro i hi hi2
        have hi' : i < D * N := Finset.mem_range.1 hi
        rw [dif_pos hi', hterm ⟨i, hi'⟩ (hzero _ ?_), zero_smul]
        have : ¬ i < q := fun h => hi2 (Finset.mem_range.2 h)
        simp only [q, lt_min_iff, not_and] at this
        by_contra hc
        exact this (by simpa using hc) hi'
    · intro i j hi hj hi0 hj0
      change i < σ.length at hi
      change j < σ.length at hj
      rw [hσl] at hi hj
      have hi' : i < D * N := lt_of_lt_of_le hi (min_le_right _ _)
      have hj' : j < D * N := lt_of_lt_of_le hj (min_le_right _ _)
      change σ.getD i 0 ≠ 0 at hi0
      change σ.getD j 0 ≠ 0 at hj0
      rw [hσ i hi] at hi0
      rw [hσ j hj] at hj0
      rw [← hn, Finset.sum_range]
      have e : ∀ a : Fin n, (if h : (a : ℕ) < n ∧ i < D * N then inner ℝ (Av ⟨a, h.1⟩) (b ⟨i, h.2⟩) / Real.sqrt (lam ⟨i, h.2⟩) else 0) *
          (if h : (a : ℕ) < n ∧ j < D * N then inner ℝ (Av ⟨a, h.1⟩) (b ⟨j, h.2⟩) / Real.sqrt (lam ⟨j, h.2⟩) else 0) =
          inner ℝ (Av a) (b ⟨i, hi'⟩) * inner ℝ (Av a) (b ⟨j, hj'⟩) * (1 / (Real.sqrt (lam ⟨i, hi'⟩) * Real.sqrt (lam ⟨j, hj'⟩))) := by
        intro a
        rw [dif_pos ⟨a.2, hi'⟩, dif_pos ⟨a.2, hj'⟩]
        simp only [Fin.eta]
        field_simp
      simp only [e]
      rw [← Finset.sum_mul, hlam]
      by_cases h : i = j
      · subst h
        rw [if_pos rfl, if_pos rfl, Real.mul_self_sqrt (hpos _)]
        refine mul_one_div_cancel ?_
        intro h0
        rw [h0, Real.sqrt_zero] at hi0
        exact hi0 rfl
      · rw [if_neg (fun h' => h (Fin.mk.inj h')), if_neg h, zero_mul]

/-- If the rows are uniformly independent the nonzero singular values are bounded below. -/
theorem svd_gap_of_bound {A : List (Fin D → Fin N → ℝ)} {r : List ℝ × List (Fin D → Fin N → ℝ)} (h : IsSVD A r) (δ : ℝ)
    (hδ : (1e-10 : ℝ) ^ 2 < δ)
    (hb : ∀ c : ℕ → ℝ, δ * ∑ a ∈ Finset.range A.length, c a ^ 2 ≤
      ∑ p, ∑ l, (∑ a ∈ Finset.range A.length, c a * A.getD a 0 p l) ^ 2) : SvdGap r.1 := by
  intro s hs
  obtain ⟨i, hi, rfl⟩ := List.getElem_of_mem hs
  by_cases h0 : r.1[i] = 0
  · exact Or.inl h0
  right
  obtain ⟨u, u1, u2⟩ := h.factor
  have hg : ∀ j (hj : j < r.1.length), r.1.getD j 0 = r.1[j] := fun j hj => List.getD_eq_getElem _ _ hj
  have hle : r.1.length ≤ D * N := by rw [h.length]; exact min_le_right _ _
  have hcol : ∑ a ∈ Finset.range A.length, u a i ^ 2 = 1 := by
    have := u2 i i hi hi (by rw [hg i hi]; exact h0) (by rw [hg i hi]; exact h0)
    rw [if_pos rfl] at this
    rw [← this]
    exact Finset.sum_congr rfl fun a _ => sq _
  have hrow : ∀ p l, ∑ a ∈ Finset.range A.length, u a i * A.getD a 0 p l = r.1[i] * r.2.getD i 0 p l := by
    intro p l
    have e : ∀ a ∈ Finset.range A.length, u a i * A.getD a 0 p l =
        ∑ j ∈ Finset.range r.1.length, (u a i * u a j) * (r.1.getD j 0 * r.2.getD j 0 p l) := by
      intro a ha
      have := congrFun (congrFun (u1 a (Finset.mem_range.1 ha)) p) l
      rw [this]
      simp only [Finset.sum_apply, Pi.smul_apply, smul_eq_mul, Finset.mul_sum]
      exact Finset.sum_congr rfl fun j _ => by ring
    rw [Finset.sum_congr rfl e, Finset.sum_comm]
    simp only [← Finset.sum_mul]
    rw [Finset.sum_eq_single i]
    · rw [u2 i i hi hi (by rw [hg i hi]; exact h0) (by rw [hg i hi]; exact h0), if_pos rfl, one_mul, hg i hi]
    · intro j hj hne
      have hj' := Finset.mem_range.1 hj
      by_cases hz : r.1.getD j 0 = 0
      · rw [hz]; ring
      · rw [u2 i j hi hj' (by rw [hg i hi]; exact h0) hz, if_neg (Ne.symm hne), zero_mul]
    · intro hni; exact absurd (Finset.mem_range.2 hi) hni
  have h1 := hb fun a => u a i
  simp only [hrow] at h1
  rw [hcol, mul_one] at h1
  have h2 : ∑ p, ∑ l, (r.1[i] * r.2.getD i 0 p l) ^ 2 = r.1[i] ^ 2 := by
    have := h.ortho i i (by omega) (by omega)
    rw [if_pos rfl] at this
    calc ∑ p, ∑ l, (r.1[i] * r.2.getD i 0 p l) ^ 2 = r.1[i] ^ 2 * ∑ p, ∑ l, r.2.getD i 0 p l * r.2.getD i 0 p l := by
          simp only [Finset.mul_sum]
          exact Finset.sum_congr rfl fun p _ => Finset.sum_congr rfl fun l _ => by ring
      _ = _ := by rw [this, mul_one]
  rw [h2] at h1
  have h3 := h.nonneg _ hs
  nlinarith [hδ, h1, h3]

end
end FIAT
