/-
The nodes of the Raviart-Thomas dual: facet blocks, interior blocks, separation (C23).
-/
import Verif.Lemmas.FacetTrace
import Verif.Props.RTSpace

namespace FIAT
open MvPolynomial
section
variable {D : ℕ}

/-- The UFC simplices used for the facet rules. -/
theorem ufc_cell_spec {d : ℕ} (hd : d = 1 ∨ d = 2 ∨ d = 3) :
    ∃ F : SimplexCell (Fin d → ℝ), ufcSimplexCell d = some F ∧ ProperSimplex ℝ F ∧ (Increasing fun i : Fin (d + 1) => F.v i) ∧
      F.verts = List.ofFn (ufcVerts ℝ d) ∧ 0 < orientation (ufcVerts ℝ d) := by
  have ho : orientation (ufcVerts ℝ d) = 1 := by
    unfold orientation
    have : (Matrix.of fun i j : Fin d => ufcVerts ℝ d j.succ i - ufcVerts ℝ d 0 i) = 1 := by
      ext i j
      simp [ufcVerts, Matrix.one_apply]
    rw [this, Matrix.det_one]
  rw [ho]
  rcases hd with rfl | rfl | rfl
  · refine ⟨_, rfl, proper_ufcInterval, fun _ => by norm_num [SimplexCell.v, CellData.toSimplex, ufcInterval], ?_, one_pos⟩
    simp only [CellData.toSimplex, ufcInterval, List.map_cons, List.map_nil, List.ofFn_succ, List.ofFn_zero]
    congr 1
    · funext l; fin_cases l; simp [ufcVerts]
    · congr 1
      funext l; change _ = (if l = _ then (1 : ℝ) else 0); fin_cases l <;> simp
  · refine ⟨_, rfl, proper_ufcTriangle, fun h => absurd h (by norm_num), ?_, one_pos⟩
    simp only [CellData.toSimplex, ufcTriangle, List.map_cons, List.map_nil, List.ofFn_succ, List.ofFn_zero]
    congr 1
    · funext l; fin_cases l <;> simp [ufcVerts]
    · congr 1
      · funext l; change _ = (if l = _ then (1 : ℝ) else 0); fin_cases l <;> simp
      · congr 1
        funext l; change _ = (if l = _ then (1 : ℝ) else 0); fin_cases l <;> simp
  · refine ⟨_, rfl, proper_ufcTetrahedron, fun h => absurd h (by norm_num), ?_, one_pos⟩
    simp only [CellData.toSimplex, ufcTetrahedron, List.map_cons, List.map_nil, List.ofFn_succ, List.ofFn_zero]
    congr 1
    · funext l; fin_cases l <;> simp [ufcVerts]
    · congr 1
      · funext l; change _ = (if l = _ then (1 : ℝ) else 0); fin_cases l <;> simp
      · congr 1
        · funext l; change _ = (if l = _ then (1 : ℝ) else 0); fin_cases l <;> simp
        · congr 1
          funext l; change _ = (if l = _ then (1 : ℝ) else 0); fin_cases l <;> simp

theorem mapM_choose {β : Type} (n : ℕ) (f : ℕ → Option β) (P : ℕ → β → Prop) (h : ∀ e < n, ∃ b, f e = some b ∧ P e b)
    (b0 : β) : ∃ F : ℕ → β, (List.range n).mapM f = some ((List.range n).map F) ∧ ∀ e < n, f e = some (F e) ∧ P e (F e) := by
  classical
  have h' : ∀ e, ∃ b, e < n → f e = some b ∧ P e b := by
    intro e
    by_cases he : e < n
    · obtain ⟨b, hb⟩ := h e he; exact ⟨b, fun _ => hb⟩
    · exact ⟨b0, fun h => absurd h he⟩
  choose F hF using h'
  refine ⟨F, ?_, hF⟩
  have : ∀ l : List ℕ, (∀ e ∈ l, e < n) → l.mapM f = some (l.map F) := by
    intro l
    induction l with
    | nil => intro _; rfl
    | cons a l ih =>
      intro hl
      rw [List.mapM_cons, (hF a (hl a (by simp))).1, ih fun e he => hl e (by simp [he])]
      rfl
  exact this _ fun e he => List.mem_range.1 he

/-- What the block of a facet has to satisfy for normal traces of degree `k`. -/
def FacetBlock (s : SimplexCell (Fin D → ℝ)) (nrm : ℕ → Option (Fin D → ℝ)) (k e : ℕ) (blk : List (Functional ℝ (Fin D → ℝ))) : Prop :=
  blk.length = (k + (D - 1)).choose (D - 1) ∧ (∀ l ∈ blk, PlainNode l) ∧
  ∀ t, HasEntity s.topo (D - 1) e t → ∀ n, nrm e = some n → ∀ w p, p.totalDegree ≤ k →
    (∀ x, OnEntity s t x → ∑ j, n j * eval x (w j) = eval x p) →
    ((∀ l ∈ blk, l.onField (fieldOf w) = 0) ↔ ∀ x, OnEntity s t x → ∑ j, n j * eval x (w j) = 0)

theorem hasEntity_unique {topo : Topology ℕ} {d e : ℕ} {t t' : List ℕ} (h : HasEntity topo d e t) (h' : HasEntity topo d e t') :
    t = t' := by
  obtain ⟨es, a, b⟩ := h
  obtain ⟨es', a', b'⟩ := h'
  rw [a, Option.some.injEq] at a'
  subst a'
  rw [b, Option.some.injEq] at b'
  exact b'

theorem facet_exists (hD : 2 ≤ D) {s : SimplexCell (Fin D → ℝ)} (hnum : NumberedSimplex s) {e : ℕ} (he : e < D + 1) :
    ∃ t, HasEntity s.topo (D - 1) e t := by
  refine ((hnum.1 (D - 1) (by omega)).2 e).2 ?_
  rw [Nat.sub_add_cancel (by omega)]; simpa using he

theorem numEnts_facets (hD : 2 ≤ D) {s : SimplexCell (Fin D → ℝ)} (hnum : NumberedSimplex s) : numEnts s (D - 1) = some (D + 1) := by
  rw [(hnum.1 (D - 1) (by omega)).1, Nat.sub_add_cancel (by omega)]; simp

theorem facet_point_blocks (hD : 2 ≤ D) {s : SimplexCell (Fin D → ℝ)} (hs : ProperSimplex ℝ s) (hnum : NumberedSimplex s)
    {nrm : ℕ → Option (Fin D → ℝ)} (hn : FacetNormals s nrm) (k : ℕ) :
    ∃ F, (List.range (D + 1)).mapM (fun i => facetPointNodes s nrm k i) = some ((List.range (D + 1)).map F) ∧
      ∀ e < D + 1, FacetBlock s nrm k e (F e) := by
  obtain ⟨F, h1, h2⟩ := mapM_choose (D + 1) (fun i => facetPointNodes s nrm k i) (FacetBlock s nrm k) (by
    intro e he
    obtain ⟨t, ht⟩ := facet_exists hD hnum he
    obtain ⟨blk, b1, b2, b3, b4⟩ := facet_points_trace hD hs hn ht k
    exact ⟨blk, b1, b2, b3, fun t' ht' => hasEntity_unique ht ht' ▸ b4⟩) []
  exact ⟨F, h1, fun e he => (h2 e he).2⟩

theorem facet_moment_blocks (hD : 2 ≤ D) {s : SimplexCell (Fin D → ℝ)} (hs : ProperSimplex ℝ s) (hnum : NumberedSimplex s)
    {nrm : ℕ → Option (Fin D → ℝ)} (hn : FacetNormals s nrm) (k : ℕ)
    (Q : QRule ℝ (Fin (D - 1) → ℝ)) {N : ℕ} (hQ : GoodRule Q (ufcVerts ℝ (D - 1)) N) (hN : 2 * k ≤ N)
    (hl : Q.wts.length = Q.pts.length) (hnd : Q.pts.Nodup) (φ : Fin ((k + (D - 1)).choose (D - 1)) → MvPolynomial (Fin (D - 1)) ℝ)
    (T : Fin ((k + (D - 1)).choose (D - 1)) → Unit → ℕ → ℝ)
    (hspan : Submodule.span ℝ (Set.range φ) = restrictTotalDegree (Fin (D - 1)) ℝ k)
    (hT : ∀ i (j : ℕ) x, Q.pts[j]? = some x → T i () j = eval x (φ i)) :
    ∃ F, (List.range (D + 1)).mapM (fun f => facetMomentNodes s nrm Q T f) = some ((List.range (D + 1)).map F) ∧
      ∀ e < D + 1, FacetBlock s nrm k e (F e) := by
  obtain ⟨F, h1, h2⟩ := mapM_choose (D + 1) (fun i => facetMomentNodes s nrm Q T i) (FacetBlock s nrm k) (by
    intro e he
    obtain ⟨t, ht⟩ := facet_exists hD hnum he
    obtain ⟨blk, b1, b2, b3, b4⟩ := facet_moments_trace hs hn ht k Q hQ hN hl hnd φ T hspan hT
    exact ⟨blk, b1, b2, b3, fun t' ht' => hasEntity_unique ht ht' ▸ b4⟩) []
  exact ⟨F, h1, fun e he => (h2 e he).2⟩

/-- The normal component of `w` vanishes on every facet. -/
def NormalZero (s : SimplexCell (Fin D → ℝ)) (nrm : ℕ → Option (Fin D → ℝ)) (w : Fin D → MvPolynomial (Fin D) ℝ) : Prop :=
  ∀ e t n, HasEntity s.topo (D - 1) e t → nrm e = some n → ∀ x, OnEntity s t x → ∑ j, n j * eval x (w j) = 0

theorem proper_independent {s : SimplexCell (Fin D → ℝ)} (hs : ProperSimplex ℝ s) :
    AffineIndependent ℝ fun i : Fin (D + 1) => s.v i := by
  have hnd := hs.2.2.1
  unfold Nondegenerate at hnd
  rwa [hs.1] at hnd

/-- In terms of the barycentric coordinates. -/
theorem normalZero_bary (hD : 1 ≤ D) {s : SimplexCell (Fin D → ℝ)} (hs : ProperSimplex ℝ s) {nrm : ℕ → Option (Fin D → ℝ)}
    (hn : FacetNormals s nrm) {g : Fin (D + 1) → Fin D → ℝ} {b : Fin (D + 1) → ℝ}
    (hb : BaryForms (fun i : Fin (D + 1) => s.v i) g b) {w : Fin D → MvPolynomial (Fin D) ℝ} (hw : NormalZero s nrm w) :
    ∀ i x, eval x (linForm (g i) (b i)) = 0 → eval x (dotC (g i) w) = 0 := by
  intro i x hx
  obtain ⟨e, t, h1, h2⟩ := facet_of_vertex hD hs i
  obtain ⟨n, c, n1, n2, n3⟩ := facet_normal hD hn hb h1 h2
  have h3 := hw e t n h1 n1 x ((onEntity_facet hb (hs.2.1.entity _ _ _ h1).1 h2 x).2 hx)
  rw [eval_dotC]
  rw [n3] at h3
  simp only [Pi.smul_apply, smul_eq_mul, mul_assoc] at h3
  rw [← Finset.mul_sum] at h3
  exact (mul_eq_zero.1 h3).resolve_left n2

/-- On a facet the normal component of a Raviart-Thomas field of order `k` is a polynomial of degree `k`. -/
theorem rt_normal_trace (hD : 1 ≤ D) {s : SimplexCell (Fin D → ℝ)} (hs : ProperSimplex ℝ s) {nrm : ℕ → Option (Fin D → ℝ)}
    (hn : FacetNormals s nrm) {k : ℕ} {w : Fin D → MvPolynomial (Fin D) ℝ} (hw : IsRT k w) {e : ℕ} {t : List ℕ}
    (h : HasEntity s.topo (D - 1) e t) {n : Fin D → ℝ} (hne : nrm e = some n) :
    ∃ p : MvPolynomial (Fin D) ℝ, p.totalDegree ≤ k ∧ ∀ x, OnEntity s t x → ∑ j, n j * eval x (w j) = eval x p := by
  obtain ⟨g, b, hb⟩ := baryForms_exist _ (proper_independent hs)
  obtain ⟨i, hi⟩ := facet_opposite hD hs h
  obtain ⟨n', c, n1, n2, n3⟩ := facet_normal hD hn hb h hi
  rw [hne, Option.some.injEq] at n1
  subst n1
  obtain ⟨p, p1, p2⟩ := rt_facet hw (g i) (b i)
  refine ⟨C c * p, (totalDegree_mul _ _).trans (by rw [totalDegree_C, zero_add]; exact p1), fun x hx => ?_⟩
  have h3 := p2 x ((onEntity_facet hb (hs.2.1.entity _ _ _ h).1 hi x).1 hx)
  rw [eval_dotC] at h3
  rw [map_mul, eval_C, ← h3, n3, Finset.mul_sum]
  exact Finset.sum_congr rfl fun j _ => by simp [mul_assoc]

/-- What the interior nodes of the Raviart-Thomas element have to satisfy. -/
def RTInterior (s : SimplexCell (Fin D → ℝ)) (nrm : ℕ → Option (Fin D → ℝ)) (k : ℕ) (I : List (Functional ℝ (Fin D → ℝ))) : Prop :=
  I.length = D * dimLower D k ∧ (∀ l ∈ I, PlainNode l) ∧
  ∀ w, IsRT k w → NormalZero s nrm w → (∀ l ∈ I, l.onField (fieldOf w) = 0) → w = 0

theorem rt_interior_empty (hD : 1 ≤ D) {s : SimplexCell (Fin D → ℝ)} (hs : ProperSimplex ℝ s) {nrm : ℕ → Option (Fin D → ℝ)}
    (hn : FacetNormals s nrm) : RTInterior s nrm 0 [] := by
  refine ⟨by simp [dimLower], by simp, fun w hw hz _ => ?_⟩
  obtain ⟨g, b, hb⟩ := baryForms_exist _ (proper_independent hs)
  exact hb.all_zero w fun i => rt_point_core hw g b (hb.ne_zero hD) hb.sum_poly (normalZero_bary hD hs hn hb hz) []
    (by simp) (by intro p hp; omega) (by simp) i

theorem rt_interior_points (hD : 1 ≤ D) {s : SimplexCell (Fin D → ℝ)} (hs : ProperSimplex ℝ s) (hnum : NumberedSimplex s)
    {nrm : ℕ → Option (Fin D → ℝ)} (hn : FacetNormals s nrm) (k : ℕ) (hk : k ≠ 0) :
    ∃ pts L, makePoints ℝ s D 0 (k + D) = some pts ∧
      ((List.range D).mapM fun (d : ℕ) => pts.mapM fun pt => componentPointEvaluation (d : ℤ) [D] pt) = some L ∧
      RTInterior s nrm k L.flatten := by
  obtain ⟨g, b, hb⟩ := baryForms_exist _ (proper_independent hs)
  obtain ⟨pts, p1, p2, p3⟩ := dmats_points_unisolvent s hs.1 hs.2.1 hs.2.2.1 hD (k - 1)
  rw [show k - 1 + D + 1 = k + D by omega] at p1
  have hent : ∃ t, HasEntity s.topo D 0 t := ((hnum.1 D le_rfl).2 0).2 (by simp)
  obtain ⟨t, ht⟩ := hent
  have htm : ∀ i : Fin (D + 1), (i : ℕ) ∈ t := by
    obtain ⟨a1, a2, a3⟩ := hs.2.1.entity _ _ _ ht
    rw [hs.1] at a3
    have hsub : t.toFinset ⊆ Finset.range (D + 1) := fun a ha => Finset.mem_range.2 (a3 a (List.mem_toFinset.1 ha))
    have := Finset.eq_of_subset_of_card_le hsub (by rw [List.toFinset_card_of_nodup a1, a2, Finset.card_range])
    intro i
    rw [← List.mem_toFinset, this, Finset.mem_range]; exact i.2
  obtain ⟨pts', q1, q2⟩ := make_points_mem (K := ℝ) s hs.2.1 (k + D) (by omega) ht
  rw [p1, Option.some.injEq] at q1
  subst q1
  have hpos : ∀ x ∈ pts, ∀ i, eval x (linForm (g i) (b i)) ≠ 0 := by
    intro x hx i
    obtain ⟨β, b1, b2, rfl⟩ := (q2 x).1 hx
    rw [hs.1] at b2 ⊢
    have hkD : ((k + D : ℕ) : ℝ) ≠ 0 := by
      have : 0 < k + D := by omega
      exact_mod_cast this.ne'
    have e : baryPt ℝ s.v (D + 1) (k + D) β = ∑ j : Fin (D + 1), ((β j : ℝ) / ((k + D : ℕ) : ℝ)) • s.v j := by
      unfold baryPt
      rw [Finset.sum_range]
    rw [e, hb.unique (fun j => (β j : ℝ) / ((k + D : ℕ) : ℝ)) (by
      rw [← Finset.sum_div, ← Nat.cast_sum, ← Finset.sum_range fun j => β j, b2, div_self hkD])]
    exact div_ne_zero (by exact_mod_cast (b1 i).2 (htm i)) hkD
  have hcomp : ∀ d : ℕ, d < D → ∃ blk, (pts.mapM fun pt => componentPointEvaluation (K := ℝ) (d : ℤ) [D] pt) = some blk ∧
      (blk.length = pts.length ∧ (∀ l ∈ blk, PlainNode l) ∧
        ∀ w, (∀ l ∈ blk, l.onField (fieldOf w) = 0) → ∀ x ∈ pts, ∀ j : Fin D, (j : ℕ) = d → eval x (w j) = 0) := by
    intro d hd
    have hx : ∀ x : Fin D → ℝ, ∃ l, componentPointEvaluation (K := ℝ) (d : ℤ) [D] x = some l ∧ PlainNode l ∧
        ∀ w, l.onField (fieldOf w) = eval x (w ⟨d, hd⟩) := by
      intro x
      obtain ⟨l, l1, l2, -⟩ := component_point_field (fun _ => 0) ⟨d, hd⟩ x
      refine ⟨l, l1, l2, fun w => ?_⟩
      obtain ⟨l', l1', -, l3⟩ := component_point_field w ⟨d, hd⟩ x
      rw [l1, Option.some.injEq] at l1'
      rw [l1', l3]
    choose f f1 f2 f3 using hx
    refine ⟨pts.map f, mapM_some_map _ _ _ fun x _ => f1 x, by simp, ?_, ?_⟩
    · intro l hl
      obtain ⟨x, -, rfl⟩ := List.mem_map.1 hl
      exact f2 x
    · rintro w hw x hx j rfl
      rw [← f3 x w]
      exact hw _ (List.mem_map_of_mem hx)
  obtain ⟨F, h1, h2⟩ := mapM_choose D _ _ hcomp []
  refine ⟨pts, _, p1, h1, ?_, ?_, ?_⟩
  · have e : ((List.range D).map F).flatten.length = ((List.range D).map fun d => (F d).length).sum := by
      rw [List.length_flatten, List.map_map]; rfl
    rw [e, List.map_congr_left (g := fun _ => pts.length) fun d hd => (h2 d (List.mem_range.1 hd)).2.1]
    rw [p2, dimLower, if_neg hk]
    simp
  · intro l hl
    obtain ⟨L, hL, hl⟩ := List.mem_flatten.1 hl
    obtain ⟨d, hd, rfl⟩ := List.mem_map.1 hL
    exact (h2 d (List.mem_range.1 hd)).2.2.1 l hl
  · intro w hw hz hI
    refine hb.all_zero w fun i => rt_point_core hw g b (hb.ne_zero hD) hb.sum_poly (normalZero_bary hD hs hn hb hz) pts hpos
      (fun p hp hv => p3 p (by omega) hv) (fun x hx j => ?_) i
    exact (h2 j j.2).2.2.2 w (fun l hl => hI l (List.mem_flatten.2 ⟨F j, List.mem_map.2 ⟨j, List.mem_range.2 j.2, rfl⟩, hl⟩))
      x hx j rfl

theorem rt_interior_moments (hD : 1 ≤ D) {s : SimplexCell (Fin D → ℝ)} (hs : ProperSimplex ℝ s)
    {nrm : ℕ → Option (Fin D → ℝ)} (hn : FacetNormals s nrm) (k : ℕ) (hk : k ≠ 0)
    (Q : QRule ℝ (Fin D → ℝ)) {N : ℕ} (hQ : GoodRule Q (fun i : Fin (D + 1) => s.v i) N) (hN : 2 * k ≤ N)
    (hl : Q.wts.length = Q.pts.length) (hnd : Q.pts.Nodup) (φ : Fin ((k - 1 + D).choose D) → MvPolynomial (Fin D) ℝ)
    (T : Fin ((k - 1 + D).choose D) → Unit → ℕ → ℝ) (hspan : Submodule.span ℝ (Set.range φ) = restrictTotalDegree (Fin D) ℝ (k - 1))
    (hT : ∀ i (j : ℕ) x, Q.pts[j]? = some x → T i () j = eval x (φ i)) : RTInterior s nrm k (componentMoments Q T) := by
  obtain ⟨h1, h2, h3⟩ := component_moments_spec _ Q hQ hl hnd φ T hspan hT
  refine ⟨by rw [h1, dimLower, if_neg hk], h2, fun w hw hz hI => ?_⟩
  obtain ⟨g, b, hb⟩ := baryForms_exist _ (proper_independent hs)
  have hdeg : ∀ j, (w j).totalDegree ≤ k + 1 := by
    obtain ⟨p, q, hp, hq, h⟩ := hw
    intro j
    rw [h]
    refine (totalDegree_add _ _).trans (max_le ((hp j).trans (by omega)) ((totalDegree_mul _ _).trans ?_))
    have := totalDegree_X (R := ℝ) j
    omega
  have h4 := (h3 w fun j => by have := hdeg j; omega).1 hI
  exact hb.all_zero w fun i => rt_integral_core hw _ (proper_independent hs) g b (hb.ne_zero hD) hb.sum_poly
    (fun i x hx => hb.nonneg i x hx) (normalZero_bary hD hs hn hb hz) (fun p hp j => h4 p (by omega) j) i

end
end FIAT
