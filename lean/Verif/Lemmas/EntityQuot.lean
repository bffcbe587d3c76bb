/-
The points of `make_points` on an entity of any dimension and any order, and polynomials that vanish on some facets of the entity.
-/
import Verif.Lemmas.ScalarBlocks

namespace FIAT
open MvPolynomial
section
variable {D : ℕ}

theorem entity_points_length {s : SimplexCell (Fin D → ℝ)} (hs : ProperSimplex ℝ s) (hnum : NumberedSimplex s) {d e : ℕ} {t : List ℕ}
    (hd : 1 ≤ d) (h : HasEntity s.topo d e t) (n : ℕ) (hn : 1 ≤ n) {pts : List (Fin D → ℝ)} (hp : makePoints ℝ s d e n = some pts) :
    pts.length = (n - 1).choose d := by
  have hdD : d ≤ D := hnum.2 d e t h
  by_cases hnd : n ≤ d
  · rw [Nat.choose_eq_zero_of_lt (by omega), List.length_eq_zero_iff]
    obtain ⟨pts', p1, p2⟩ := make_points_mem (K := ℝ) s hs.2.1 n hn h
    rw [hp, Option.some.injEq] at p1
    subst p1
    rw [List.eq_nil_iff_forall_not_mem]
    intro x hx
    obtain ⟨β, b1, b2, -⟩ := (p2 x).1 hx
    obtain ⟨a1, a2, a3⟩ := hs.2.1.entity _ _ _ h
    have hsub : t.toFinset ⊆ Finset.range (s.sd + 1) := fun a ha => Finset.mem_range.2 (a3 a (List.mem_toFinset.1 ha))
    have h1 : ∑ a ∈ t.toFinset, 1 ≤ ∑ a ∈ Finset.range (s.sd + 1), β a :=
      (Finset.sum_le_sum fun a ha => Nat.one_le_iff_ne_zero.2 ((b1 a).2 (List.mem_toFinset.1 ha))).trans
        (Finset.sum_le_sum_of_subset hsub)
    rw [b2, Finset.sum_const, List.toFinset_card_of_nodup a1, a2] at h1
    simp at h1
    omega
  · obtain ⟨k, rfl⟩ : ∃ k, n = k + d + 1 := ⟨n - d - 1, by omega⟩
    rcases Nat.lt_or_ge d D with h1 | h1
    · obtain ⟨pts', q1, q2, -⟩ := entity_points hs hd h1 h k
      rw [hp, Option.some.injEq] at q1
      subst q1
      simpa using q2
    · obtain rfl : d = D := le_antisymm hdD h1
      obtain ⟨pts', q1, q2, -⟩ := dmats_points_unisolvent s hs.1 hs.2.1 hs.2.2.1 hd k
      have he : e = 0 := by
        have := ((hnum.1 d le_rfl).2 e).1 ⟨t, h⟩
        simpa using this
      subst he
      rw [hp, Option.some.injEq] at q1
      subst q1
      simpa using q2

/-- The points of order `n` on the entity determine, among the polynomials of degree at most `k` that vanish on the facets opposite
to the vertices of `S`, the values on the entity, when `k - |S| ≤ n - d - 1`. -/
theorem entity_points_quot {s : SimplexCell (Fin D → ℝ)} (hs : ProperSimplex ℝ s) {d e : ℕ} {t : List ℕ}
    (hd : 1 ≤ d) (h : HasEntity s.topo d e t) (n : ℕ) (hn : 1 ≤ n) {pts : List (Fin D → ℝ)} (hp : makePoints ℝ s d e n = some pts)
    (k : ℕ) (p : MvPolynomial (Fin D) ℝ) (hk : p.totalDegree ≤ k) (S : Finset ℕ) (hS : ∀ a ∈ S, a ∈ t) (hkn : k + d + 1 ≤ n + S.card)
    (hf : ∀ a ∈ S, ∀ t' : List ℕ, t'.Nodup → (∀ c, c ∈ t' ↔ c ∈ t ∧ c ≠ a) → ∀ x, OnEntity s t' x → eval x p = 0)
    (hz : ∀ x ∈ pts, eval x p = 0) : ∀ x, OnEntity s t x → eval x p = 0 := by
  obtain ⟨τ, t1, t2, rfl, -⟩ := entity_tuple hs h
  obtain ⟨g, b, hb⟩ := baryForms_exist (ufcVerts ℝ d) (ufcVerts_affineIndependent d)
  have hev : ∀ y, eval y (pullback (s.v (τ 0)) (fun j : Fin d => s.v (τ j.succ)) p) = eval (entMap (fun j => s.v (τ j)) y) p := by
    intro y; rw [eval_pullback]; rfl
  obtain ⟨r, h1, h2⟩ := hb.quotient hd 1 (Finset.univ.filter fun i => τ i ∈ S) (pullback (s.v (τ 0)) (fun j : Fin d => s.v (τ j.succ)) p)
    ((totalDegree_pullback _ _ _).trans hk) (by
      intro i hi
      rw [pow_one, linForm_dvd_iff _ _ (hb.ne_zero hd i)]
      intro y hy
      rw [hev]
      have hnd : (List.ofFn τ).Nodup := List.nodup_ofFn.2 t1
      exact hf (τ i) (Finset.mem_filter.1 hi).2 ((List.ofFn τ).filter (· ≠ τ i)) (hnd.filter _) (fun a => by simp) _
        (entMap_facet hb τ t1 i _ (hnd.filter _) (fun a => by simp) y hy))
  have hcard : (Finset.univ.filter fun i => τ i ∈ S).card = S.card := by
    rw [← Finset.card_image_of_injective _ t1]
    congr 1
    ext a
    rw [Finset.mem_image]
    constructor
    · rintro ⟨i, hi, rfl⟩; exact (Finset.mem_filter.1 hi).2
    · intro ha
      obtain ⟨i, rfl⟩ := (List.mem_ofFn' _ _).1 (hS a ha)
      exact ⟨i, Finset.mem_filter.2 ⟨Finset.mem_univ _, ha⟩, rfl⟩
  rw [hcard] at h2
  have hn0 : (n : ℝ) ≠ 0 := by positivity
  have hr : r = 0 := by
    rcases h2 with h2 | h2
    · exact h2
    rw [mul_one] at h2
    refine lattice_unisolvent _ (n - d - 1) (fun _ α => ((α + 1 : ℕ) : ℝ) / n) (fun _ a b hab => ?_) r (by omega) fun α hα => ?_
    · simp only at hab
      rw [div_left_inj' hn0] at hab
      have := Nat.cast_injective (R := ℝ) hab
      omega
    · set y : Fin d → ℝ := fun i => ((α i + 1 : ℕ) : ℝ) / n with hy
      have hsum : ∑ i, (α i + 1) + 1 ≤ n := by
        rw [Finset.sum_add_distrib]
        simp
        omega
      -- the natural coordinates
      set γ : Fin (d + 1) → ℕ := Fin.cons (n - ∑ i, (α i + 1)) (fun i => α i + 1) with hγ
      have hγ1 : ∀ j, 1 ≤ γ j := by
        intro j
        refine Fin.cases ?_ (fun i => ?_) j
        · rw [hγ, Fin.cons_zero]; omega
        · rw [hγ, Fin.cons_succ]; omega
      have hγs : ∑ j, γ j = n := by
        rw [Fin.sum_univ_succ, hγ, Fin.cons_zero]
        simp only [Fin.cons_succ]
        omega
      have hlam : ∀ j, eval y (linForm (g j) (b j)) = (γ j : ℝ) / n := by
        have hyc : y = ∑ j, ((γ j : ℝ) / n) • ufcVerts ℝ d j := by
          funext l
          rw [Finset.sum_apply, Fin.sum_univ_succ]
          simp only [Pi.smul_apply, smul_eq_mul]
          rw [Finset.sum_eq_single l]
          · simp [ufcVerts, hγ, hy]
          · intro i _ hi; simp [ufcVerts, Ne.symm hi]
          · simp
        intro j
        rw [hyc]
        exact hb.unique (fun j => (γ j : ℝ) / n) (by rw [← Finset.sum_div, ← Nat.cast_sum, hγs, div_self hn0]) j
      obtain ⟨pts', p1, p2⟩ := make_points_mem (K := ℝ) s hs.2.1 n hn h
      rw [hp, Option.some.injEq] at p1
      subst p1
      have hmem : entMap (fun j => s.v (τ j)) y ∈ pts := by
        rw [p2]
        have hin : Function.Injective τ := t1
        refine ⟨Function.extend τ γ 0, fun i => ?_, ?_, ?_⟩
        · rw [List.mem_ofFn' τ i]
          constructor
          · intro hi
            by_contra hc
            rw [Function.extend_apply' _ _ _ (fun ⟨j, hj⟩ => hc ⟨j, hj⟩)] at hi
            exact hi rfl
          · rintro ⟨j, rfl⟩
            rw [hin.extend_apply]
            have := hγ1 j
            omega
        · rw [← hγs, hs.1]
          have hsub : Finset.univ.image τ ⊆ Finset.range (D + 1) := by
            intro a ha
            obtain ⟨j, -, rfl⟩ := Finset.mem_image.1 ha
            exact Finset.mem_range.2 (t2 j)
          rw [← Finset.sum_subset hsub, Finset.sum_image fun _ _ _ _ h => hin h]
          · simp only [hin.extend_apply]
          · intro a _ ha
            rw [Function.extend_apply' _ _ _ (fun ⟨j, hj⟩ => ha (Finset.mem_image.2 ⟨j, Finset.mem_univ _, hj⟩))]
            rfl
        · rw [entMap_bary hb, hs.1]
          unfold baryPt
          have hsub : Finset.univ.image τ ⊆ Finset.range (D + 1) := by
            intro a ha
            obtain ⟨j, -, rfl⟩ := Finset.mem_image.1 ha
            exact Finset.mem_range.2 (t2 j)
          rw [← Finset.sum_subset hsub, Finset.sum_image fun _ _ _ _ h => hin h]
          · simp only [hin.extend_apply, hlam]
          · intro a _ ha
            rw [Function.extend_apply' _ _ _ (fun ⟨j, hj⟩ => ha (Finset.mem_image.2 ⟨j, Finset.mem_univ _, hj⟩))]
            simp
      have hze := hz _ hmem
      rw [← hev, h1, map_mul, map_prod] at hze
      rcases mul_eq_zero.1 hze with h0 | h0
      · exfalso
        obtain ⟨j, -, hj⟩ := Finset.prod_eq_zero_iff.1 h0
        rw [pow_one, hlam, div_eq_zero_iff] at hj
        rcases hj with hj | hj
        · have := hγ1 j
          rw [Nat.cast_eq_zero] at hj
          omega
        · exact hn0 hj
      · exact h0
  intro x hx
  rw [onEntity_iff s τ t1] at hx
  obtain ⟨y, rfl⟩ := hx
  rw [← hev, h1, hr, mul_zero, map_zero]

end
end FIAT
