/-
Facets of a simplex, their normals, and traces (C23).
-/
import Verif.Lemmas.VecElement

namespace FIAT
open MvPolynomial
section
variable {D : ℕ}

/-- Specification: `nrm` returns, for every facet, a nonzero vector orthogonal to it. -/
def FacetNormals (s : SimplexCell (Fin D → ℝ)) (nrm : ℕ → Option (Fin D → ℝ)) : Prop :=
  ∀ e t, HasEntity s.topo (D - 1) e t → ∃ n, nrm e = some n ∧ n ≠ 0 ∧
    ∀ a ∈ t, ∀ c ∈ t, ∑ j, n j * (s.v a j - s.v c j) = 0

theorem facet_opposite (hD : 1 ≤ D) {s : SimplexCell (Fin D → ℝ)} (hs : ProperSimplex ℝ s) {e : ℕ} {t : List ℕ}
    (h : HasEntity s.topo (D - 1) e t) : ∃ i : Fin (D + 1), ∀ a, a ∈ t ↔ a < D + 1 ∧ a ≠ i := by
  obtain ⟨h1, h2, h3⟩ := hs.2.1.entity _ _ _ h
  rw [hs.1] at h3
  have hsub : t.toFinset ⊆ Finset.range (D + 1) := fun a ha => Finset.mem_range.2 (h3 a (List.mem_toFinset.1 ha))
  have hc : t.toFinset.card = D := by rw [List.toFinset_card_of_nodup h1, h2]; omega
  have hc2 : (Finset.range (D + 1) \ t.toFinset).card = 1 := by
    rw [Finset.card_sdiff_of_subset hsub, Finset.card_range, hc]; omega
  obtain ⟨i, hi⟩ := Finset.card_eq_one.1 hc2
  have hmem : ∀ a, (a < D + 1 ∧ a ∉ t) ↔ a = i := by
    intro a
    rw [← Finset.mem_singleton, ← hi]; simp
  have hiD := ((hmem i).2 rfl).1
  refine ⟨⟨i, hiD⟩, fun a => ⟨fun ha => ⟨h3 a ha, ?_⟩, fun ha => ?_⟩⟩
  · rintro rfl
    exact ((hmem _).2 rfl).2 ha
  · by_contra hc
    exact ha.2 ((hmem a).1 ⟨ha.1, hc⟩)

theorem facet_of_vertex (hD : 1 ≤ D) {s : SimplexCell (Fin D → ℝ)} (hs : ProperSimplex ℝ s) (i : Fin (D + 1)) :
    ∃ e t, HasEntity s.topo (D - 1) e t ∧ ∀ a, a ∈ t ↔ a < D + 1 ∧ a ≠ i := by
  obtain ⟨d, e, t, h1, h2⟩ := hs.2.1.all ((Finset.range (D + 1)).erase i) (by
    rw [← Finset.card_pos, Finset.card_erase_of_mem (Finset.mem_range.2 i.2), Finset.card_range]; omega) (by
    rw [hs.1]; exact Finset.erase_subset _ _)
  have hmem : ∀ a, a ∈ t ↔ a < D + 1 ∧ a ≠ i := by
    intro a
    rw [← List.mem_toFinset, h2, Finset.mem_erase, Finset.mem_range]
    tauto
  obtain ⟨n1, n2, -⟩ := hs.2.1.entity _ _ _ h1
  have : d = D - 1 := by
    have h3 := List.toFinset_card_of_nodup n1
    rw [h2, Finset.card_erase_of_mem (Finset.mem_range.2 i.2), Finset.card_range, n2] at h3
    omega
  subst this
  exact ⟨e, t, h1, hmem⟩

/-- The facet opposite to vertex `i` is where barycentric coordinate `i` vanishes. -/
theorem onEntity_facet {s : SimplexCell (Fin D → ℝ)} {g : Fin (D + 1) → Fin D → ℝ} {b : Fin (D + 1) → ℝ}
    (hb : BaryForms (fun i : Fin (D + 1) => s.v i) g b) {t : List ℕ} (hn : t.Nodup) {i : Fin (D + 1)}
    (ht : ∀ a, a ∈ t ↔ a < D + 1 ∧ a ≠ i) (x : Fin D → ℝ) : OnEntity s t x ↔ eval x (linForm (g i) (b i)) = 0 := by
  have hset : t.toFinset = (Finset.range (D + 1)).erase i := by
    ext a
    rw [List.mem_toFinset, ht, Finset.mem_erase, Finset.mem_range]; tauto
  have hsum : ∀ {M : Type} [AddCommMonoid M] (f : ℕ → M), (t.map f).sum = ∑ j : Fin (D + 1), if j = i then 0 else f j := by
    intro M _ f
    rw [← List.sum_toFinset _ hn, hset]
    have e : ∑ a ∈ (Finset.range (D + 1)).erase i, f a = ∑ a ∈ (Finset.range (D + 1)).erase i, if a = i then 0 else f a :=
      Finset.sum_congr rfl fun a ha => by rw [if_neg (Finset.ne_of_mem_erase ha)]
    rw [e, Finset.sum_erase (f := fun a => if a = (i : ℕ) then 0 else f a) _ (if_pos rfl), Finset.sum_range]
    refine Finset.sum_congr rfl fun j _ => ?_
    by_cases h : j = i
    · rw [if_pos (by rw [h]), if_pos h]
    · rw [if_neg (fun h' => h (Fin.ext h')), if_neg h]
  unfold OnEntity
  simp only [hsum]
  constructor
  · rintro ⟨c, h1, rfl⟩
    have h2 := hb.unique (fun j => if j = i then 0 else c j) h1 i
    rw [if_pos rfl] at h2
    rw [← h2]
    congr 2
    refine Finset.sum_congr rfl fun j _ => ?_
    split_ifs <;> simp
  · intro hx
    refine ⟨fun a => if h : a < D + 1 then eval x (linForm (g ⟨a, h⟩) (b ⟨a, h⟩)) else 0, ?_, ?_⟩
    · rw [← hb.sum_one x]
      refine Finset.sum_congr rfl fun j _ => ?_
      by_cases h : j = i
      · rw [if_pos h, h, hx]
      · beta_reduce
        rw [if_neg h, dif_pos j.2]
    · conv_lhs => rw [← hb.comb x]
      refine Finset.sum_congr rfl fun j _ => ?_
      by_cases h : j = i
      · rw [if_pos h, h, hx, zero_smul]
      · beta_reduce
        rw [if_neg h, dif_pos j.2]

/-- The normal of the facet opposite to vertex `i` is a nonzero multiple of the gradient of barycentric coordinate `i`. -/
theorem facet_normal (hD : 1 ≤ D) {s : SimplexCell (Fin D → ℝ)} {nrm : ℕ → Option (Fin D → ℝ)} (hn : FacetNormals s nrm)
    {g : Fin (D + 1) → Fin D → ℝ} {b : Fin (D + 1) → ℝ} (hb : BaryForms (fun i : Fin (D + 1) => s.v i) g b) {e : ℕ} {t : List ℕ}
    (h : HasEntity s.topo (D - 1) e t) {i : Fin (D + 1)} (ht : ∀ a, a ∈ t ↔ a < D + 1 ∧ a ≠ i) :
    ∃ (n : Fin D → ℝ) (c : ℝ), nrm e = some n ∧ c ≠ 0 ∧ n = c • g i := by
  obtain ⟨n, h1, h2, h3⟩ := hn e t h
  obtain ⟨c, hc⟩ := hb.normal hD i n fun a c ha hc =>
    h3 a ((ht a).2 ⟨a.2, fun h => ha (Fin.ext h)⟩) c ((ht c).2 ⟨c.2, fun h => hc (Fin.ext h)⟩)
  refine ⟨n, c, h1, ?_, hc⟩
  rintro rfl
  exact h2 (by rw [hc, zero_smul])

theorem eval_dotC (g : Fin D → ℝ) (w : Fin D → MvPolynomial (Fin D) ℝ) (x : Fin D → ℝ) :
    eval x (dotC g w) = ∑ j, g j * eval x (w j) := by
  unfold dotC
  rw [map_sum]
  exact Finset.sum_congr rfl fun j _ => by rw [map_mul, eval_C]

/-- The point nodes of a facet determine the normal trace of a field whose normal trace has degree at most `k`. -/
theorem facet_points_trace (hD : 2 ≤ D) {s : SimplexCell (Fin D → ℝ)} (hs : ProperSimplex ℝ s)
    {nrm : ℕ → Option (Fin D → ℝ)} (hn : FacetNormals s nrm) {e : ℕ} {t : List ℕ} (h : HasEntity s.topo (D - 1) e t) (k : ℕ) :
    ∃ blk, facetPointNodes s nrm k e = some blk ∧ blk.length = (k + (D - 1)).choose (D - 1) ∧ (∀ l ∈ blk, PlainNode l) ∧
      ∀ n, nrm e = some n → ∀ w p, p.totalDegree ≤ k → (∀ x, OnEntity s t x → ∑ j, n j * eval x (w j) = eval x p) →
        ((∀ l ∈ blk, l.onField (fieldOf w) = 0) ↔ ∀ x, OnEntity s t x → ∑ j, n j * eval x (w j) = 0) := by
  obtain ⟨pts, p1, p2, p3, p4⟩ := entity_points hs (by omega) (by omega) h k
  rw [show k + (D - 1) + 1 = D + k by omega] at p1
  obtain ⟨n, n1, -, -⟩ := hn e t h
  refine ⟨pts.map fun pt => pointDirectionEvaluation D (vecNat n) pt, ?_, by simpa using p2, ?_, ?_⟩
  · unfold facetPointNodes
    rw [p1, Option.bind_some, n1, Option.map_some]
  · intro l hl
    obtain ⟨pt, -, rfl⟩ := List.mem_map.1 hl
    exact point_direction_plain _ _
  · intro n' hn' w p hp hwp
    rw [n1, Option.some.injEq] at hn'
    subst hn'
    constructor
    · intro hz x hx
      rw [hwp x hx]
      refine p4 p hp (fun y hy => ?_) x hx
      rw [← hwp y (p3 y hy), ← point_direction_field]
      exact hz _ (List.mem_map_of_mem hy)
    · intro hz l hl
      obtain ⟨pt, hpt, rfl⟩ := List.mem_map.1 hl
      rw [point_direction_field]
      exact hz _ (p3 _ hpt)

/-- The same for the moments. -/
theorem facet_moments_trace {s : SimplexCell (Fin D → ℝ)} (hs : ProperSimplex ℝ s)
    {nrm : ℕ → Option (Fin D → ℝ)} (hn : FacetNormals s nrm) {e : ℕ} {t : List ℕ} (h : HasEntity s.topo (D - 1) e t) (k : ℕ)
    (Q : QRule ℝ (Fin (D - 1) → ℝ)) {N : ℕ} (hQ : GoodRule Q (ufcVerts ℝ (D - 1)) N) (hN : 2 * k ≤ N)
    (hl : Q.wts.length = Q.pts.length) (hnd : Q.pts.Nodup) {m : ℕ} (φ : Fin m → MvPolynomial (Fin (D - 1)) ℝ)
    (T : Fin m → Unit → ℕ → ℝ) (hspan : Submodule.span ℝ (Set.range φ) = restrictTotalDegree (Fin (D - 1)) ℝ k)
    (hT : ∀ i (j : ℕ) x, Q.pts[j]? = some x → T i () j = eval x (φ i)) :
    ∃ blk, facetMomentNodes s nrm Q T e = some blk ∧ blk.length = m ∧ (∀ l ∈ blk, PlainNode l) ∧
      ∀ n, nrm e = some n → ∀ w p, p.totalDegree ≤ k → (∀ x, OnEntity s t x → ∑ j, n j * eval x (w j) = eval x p) →
        ((∀ l ∈ blk, l.onField (fieldOf w) = 0) ↔ ∀ x, OnEntity s t x → ∑ j, n j * eval x (w j) = 0) := by
  obtain ⟨pts, p1, p2, p3, p4, p5⟩ := entity_moments hs h Q hQ hl hnd
  obtain ⟨n, n1, -, -⟩ := hn e t h
  have hl' : Q.wts.length = pts.length := by rw [hl, p3]
  have hpt : ∀ i, ((zipRule pts Q.wts (T i ())).map fun q => q.1).Nodup := fun i => by
    rw [zipRule_points _ _ hl']; exact p2
  refine ⟨(List.finRange m).map fun i => integralMomentOfDirection D (vecNat n) (zipRule pts Q.wts (T i ())), ?_, by simp, ?_, ?_⟩
  · unfold facetMomentNodes
    rw [p1, Option.bind_some, n1, Option.map_some]
  · intro l hl
    obtain ⟨i, -, rfl⟩ := List.mem_map.1 hl
    exact moment_direction_plain _ _ (hpt i)
  · intro n' hn' w p hp hwp
    rw [n1, Option.some.injEq] at hn'
    subst hn'
    have hq : ∀ i (f f' : (Fin D → ℝ) → ℝ), (∀ x, OnEntity s t x → f x = f' x) →
        quadSum (zipRule pts Q.wts (T i ())) f = quadSum (zipRule pts Q.wts (T i ())) f' := by
      intro i f f' hff
      unfold quadSum
      congr 1
      refine List.map_congr_left fun q hq => ?_
      have : q.1 ∈ pts := by rw [← zipRule_points pts Q.wts hl' (T i ())]; exact List.mem_map_of_mem hq
      rw [hff _ (p4 _ this)]
    constructor
    · intro hz x hx
      rw [hwp x hx]
      refine p5 m k φ (fun i => T i ()) hN hspan hT p hp (fun i => ?_) x hx
      rw [← hq i _ _ hwp, ← moment_direction_field w n _ (hpt i)]
      exact hz _ (List.mem_map_of_mem (List.mem_finRange i))
    · intro hz l hl
      obtain ⟨i, hi, rfl⟩ := List.mem_map.1 hl
      rw [moment_direction_field w n _ (hpt i), hq i _ (fun _ => 0) hz]
      simp [quadSum]

/-- The moments of the components against a spanning set of `P_k` on the cell. -/
theorem component_moments_spec (v : Fin (D + 1) → Fin D → ℝ) (Q : QRule ℝ (Fin D → ℝ)) {N : ℕ} (hQ : GoodRule Q v N)
    (hl : Q.wts.length = Q.pts.length) (hnd : Q.pts.Nodup) {m k : ℕ} (φ : Fin m → MvPolynomial (Fin D) ℝ)
    (T : Fin m → Unit → ℕ → ℝ) (hspan : Submodule.span ℝ (Set.range φ) = restrictTotalDegree (Fin D) ℝ k)
    (hT : ∀ i (j : ℕ) x, Q.pts[j]? = some x → T i () j = eval x (φ i)) :
    (componentMoments Q T).length = D * m ∧ (∀ l ∈ componentMoments Q T, PlainNode l) ∧
      ∀ w : Fin D → MvPolynomial (Fin D) ℝ, (∀ j, (w j).totalDegree + k ≤ N) →
        ((∀ l ∈ componentMoments Q T, l.onField (fieldOf w) = 0) ↔
          ∀ p : MvPolynomial (Fin D) ℝ, p.totalDegree ≤ k → ∀ j, ∫ x in convexHull ℝ (Set.range v), eval x (w j * p) = 0) := by
  have hpt : ∀ i, ((zipRule Q.pts Q.wts (T i ())).map fun q => q.1).Nodup := fun i => by
    rw [zipRule_points _ _ hl]; exact hnd
  have hmem : ∀ l, l ∈ componentMoments Q T ↔ ∃ (j : Fin D) (i : Fin m), l = integralMoment (zipRule Q.pts Q.wts (T i ())) [(j : ℕ)] := by
    intro l
    unfold componentMoments
    simp only [List.mem_flatMap, List.mem_range, List.mem_map, List.mem_finRange, true_and]
    constructor
    · rintro ⟨d, hd, i, rfl⟩; exact ⟨⟨d, hd⟩, i, rfl⟩
    · rintro ⟨j, i, rfl⟩; exact ⟨j, j.2, i, rfl⟩
  have hφ : ∀ i, (φ i).totalDegree ≤ k := by
    intro i
    rw [← mem_restrictTotalDegree, ← hspan]
    exact Submodule.subset_span ⟨i, rfl⟩
  refine ⟨?_, ?_, ?_⟩
  · unfold componentMoments
    rw [List.length_flatMap]
    simp
  · intro l hl
    obtain ⟨j, i, rfl⟩ := (hmem l).1 hl
    exact moment_component_plain _ _ (hpt i)
  · intro w hw
    have hval : ∀ (j : Fin D) (i : Fin m), (integralMoment (zipRule Q.pts Q.wts (T i ())) [(j : ℕ)]).onField (fieldOf w) =
        ∫ x in convexHull ℝ (Set.range v), eval x (w j * φ i) := by
      intro j i
      rw [moment_component_field w j _ (hpt i), quadSum_zip Q.pts Q.wts hl _ (fun x => eval x (φ i)) _ (hT i), ← hQ.1 _ ?_]
      · congr 1
        funext x
        rw [map_mul, mul_comm]
      · refine (totalDegree_mul _ _).trans ?_
        have := hw j
        have := hφ i
        omega
    have hint : ∀ P : MvPolynomial (Fin D) ℝ, MeasureTheory.IntegrableOn (fun x => eval x P) (convexHull ℝ (Set.range v)) :=
      fun P => integrable_hull v _ P.continuous_eval
    constructor
    · intro hz p hp j
      have hm : p ∈ Submodule.span ℝ (Set.range φ) := by rw [hspan, mem_restrictTotalDegree]; exact hp
      obtain ⟨c, hc⟩ := (Submodule.mem_span_range_iff_exists_fun ℝ).1 hm
      have e : ∀ x, eval x (w j * p) = ∑ i, c i * eval x (w j * φ i) := by
        intro x
        rw [← hc, map_mul, map_sum, Finset.mul_sum]
        refine Finset.sum_congr rfl fun i _ => ?_
        rw [smul_eval, map_mul]; ring
      simp only [e]
      rw [MeasureTheory.integral_finsetSum _ fun i _ => (hint _).const_mul _]
      refine Finset.sum_eq_zero fun i _ => ?_
      rw [MeasureTheory.integral_const_mul, ← hval, hz _ ((hmem _).2 ⟨j, i, rfl⟩), mul_zero]
    · intro hz l hl
      obtain ⟨j, i, rfl⟩ := (hmem l).1 hl
      rw [hval]
      exact hz _ (hφ i) j

end
end FIAT
