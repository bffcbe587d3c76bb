/-
The space of the Kong-Mulder-Veldhuizen elements.
-/
import Verif.Model.KMV
import Verif.Props.MiniElement
import Verif.Lemmas.TangPull

namespace FIAT
open MvPolynomial
section
variable {D : ℕ}

/-- Specification: the polynomials of degree at most `j` that vanish on the entities of dimension `d` of the cell. -/
noncomputable def vanishSub (s : SimplexCell (Fin D → ℝ)) (j d : ℕ) : Submodule ℝ (Unit → MvPolynomial (Fin D) ℝ) where
  carrier := {w | (w ()).totalDegree ≤ j ∧ ∀ e t, HasEntity s.topo d e t → ∀ x, OnEntity s t x → eval x (w ()) = 0}
  add_mem' := by
    rintro a b ⟨ha, ha'⟩ ⟨hb, hb'⟩
    refine ⟨(totalDegree_add _ _).trans (max_le ha hb), fun e t h x hx => ?_⟩
    rw [Pi.add_apply, map_add, ha' e t h x hx, hb' e t h x hx, add_zero]
  zero_mem' := ⟨by simp, fun e t h x hx => by simp⟩
  smul_mem' := by
    rintro r a ⟨ha, ha'⟩
    refine ⟨(totalDegree_smul_le _ _).trans ha, fun e t h x hx => ?_⟩
    rw [Pi.smul_apply, smul_eval, ha' e t h x hx, mul_zero]

theorem mem_vanishSub {s : SimplexCell (Fin D → ℝ)} {j d : ℕ} {w : Unit → MvPolynomial (Fin D) ℝ} :
    w ∈ vanishSub s j d ↔ (w ()).totalDegree ≤ j ∧ ∀ e t, HasEntity s.topo d e t → ∀ x, OnEntity s t x → eval x (w ()) = 0 := Iff.rfl

theorem vanishSub_mono {s : SimplexCell (Fin D → ℝ)} {j j' d : ℕ} (h : j ≤ j') : vanishSub s j d ≤ vanishSub s j' d :=
  fun _ hw => ⟨hw.1.trans h, hw.2⟩

theorem bubbleSub_eq (s : SimplexCell (Fin D → ℝ)) (hs : ProperSimplex ℝ s) (hnum : NumberedSimplex s) (hD : 1 ≤ D) {k : ℕ} (hk : 1 ≤ k) :
    bubbleSub s k 0 = vanishSub s k (D - 1) := by
  ext w
  exact bubble_space_iff s hs hnum hD hk w

/-- A nodal element has a function with given values of the nodes. -/
theorem part_interp {Cp : Type} [Fintype Cp] {s : SimplexCell (Fin D → ℝ)} {comp : Cp → List ℕ} {V : Submodule ℝ (Cp → MvPolynomial (Fin D) ℝ)}
    {p : NodalPart D Cp} (h : IsNodalPart s comp V p) (q : Cp → MvPolynomial (Fin D) ℝ) :
    ∃ a ∈ V, ∀ l ∈ p.nodes, l.onField (fieldC comp a) = l.onField (fieldC comp q) := by
  obtain ⟨ψ, p1, -, p3, -⟩ := h.nodal
  refine ⟨∑ j : Fin p.dim, (((p.nodes[(j : ℕ)]?).map fun l => l.onField (fieldC comp q)).getD 0) • ψ j,
    Submodule.sum_mem _ fun j _ => Submodule.smul_mem _ _ (p1 j), fun l hl => ?_⟩
  obtain ⟨i, hi⟩ := List.mem_iff_getElem?.1 hl
  have hlt : i < p.dim := by rw [← h.len]; exact (List.getElem?_eq_some_iff.1 hi).1
  rw [onFieldC_comb, Finset.sum_eq_single ⟨i, hlt⟩]
  · rw [p3 i l hi, if_pos rfl, mul_one]
    simp only [hi, Option.map_some, Option.getD_some]
  · intro b _ hb
    rw [p3 i l hi, if_neg (fun h => hb (Fin.ext h.symm)), mul_zero]
  · simp

/-- The lattice points of an entity lie on it. -/
theorem make_points_on (s : SimplexCell (Fin D → ℝ)) (hs : ProperSimplex ℝ s) {k : ℕ} (hk : 1 ≤ k) {d e : ℕ} {t : List ℕ}
    (ht : HasEntity s.topo d e t) {pts : List (Fin D → ℝ)} (hp : makePoints ℝ s d e k = some pts) {x : Fin D → ℝ} (hx : x ∈ pts) :
    OnEntity s t x := by
  obtain ⟨ps, p1, p2⟩ := make_points_mem (K := ℝ) s hs.2.1 k hk ht
  rw [hp] at p1
  obtain rfl := Option.some.inj p1
  obtain ⟨β, b1, b2, rfl⟩ := (p2 x).1 hx
  obtain ⟨g1, g2, g3⟩ := hs.2.1.entity _ _ _ ht
  have hz : ∀ a, a ∉ t → β a = 0 := fun a ha => by
    by_contra hb
    exact ha ((b1 a).1 hb)
  refine ⟨fun a => (β a : ℝ) / k, ?_, ?_⟩
  · rw [← sum_range_eq_list t g1 (s.sd + 1) g3 _ (fun a ha => by rw [hz a ha]; simp), ← Finset.sum_div]
    rw [show (∑ a ∈ Finset.range (s.sd + 1), (β a : ℝ)) = k by exact_mod_cast b2]
    exact div_self (by positivity)
  · rw [← sum_range_eq_list t g1 (s.sd + 1) g3 (fun a => ((β a : ℝ) / k) • s.v a) (fun a ha => by rw [hz a ha]; simp)]
    rfl

/-- The restriction of `Lagrange(cell, k)` to the dofs of the vertices and edges. -/
theorem lagrange_lower (hD : D = 2 ∨ D = 3) (s : SimplexCell (Fin D → ℝ)) (hs : ProperSimplex ℝ s) (hnum : NumberedSimplex s)
    (hv : Increasing fun i : Fin (D + 1) => s.v i) (k : ℕ) (hk : 1 ≤ k) :
    ∃ L cell facets, lagrangePart s k = some L ∧ EntityIds.at? L.ids D 0 = some cell ∧ Dict.get? L.ids (D - 1) = some facets ∧
      ∀ not_inds : List ℕ, not_inds = (if D = 2 then cell else cell ++ facets.flatMap fun p => p.2) →
      ∃ RL V, restrictPart (fun _ : Unit => []) L
          (((List.range L.dim).filter fun (i : ℕ) => decide (i ∉ not_inds)).map fun (i : ℕ) => (i : ℤ)) = some RL ∧
        RL.degree = k ∧ RL.dim = (D + 1) + (D + 1).choose 2 * (k - 1) ∧ IsNodalPart s (fun _ : Unit => []) V RL ∧ V ≤ polySpace D k ∧
        (∀ l ∈ RL.nodes, ∃ x d e t, l = pointEvaluation x ∧ HasEntity s.topo d e t ∧ d ≤ 1 ∧ OnEntity s t x) ∧
        ∀ q, (∀ l ∈ RL.nodes, l.onField (scalarField q) = 0) → ∀ d e t pts, d ≤ 1 → HasEntity s.topo d e t →
          makePoints ℝ s d e k = some pts → ∀ x ∈ pts, eval x q = 0 := by
  obtain ⟨el, ids, nodes, l1, l2, l3, l4⟩ := lagrange_part (by omega) s hs hv k hk
  obtain ⟨hsame, hpart, -⟩ := lagrange_dofs_partition s hs.2.1 k hk nodes ids l2
  obtain ⟨mc, c1, c2, c3, c4, c5⟩ := dim_dofs hs hnum hk l2 (d := D) le_rfl
  obtain ⟨mf, f1, f2, f3, f4, f5⟩ := dim_dofs hs hnum hk l2 (d := D - 1) (by omega)
  obtain ⟨t0, ht0⟩ := ((hnum.1 D le_rfl).2 0).2 (Nat.choose_pos (by omega))
  obtain ⟨cell, hcell⟩ := Option.isSome_iff_exists.1 ((hsame D 0).2 ⟨t0, ht0⟩)
  have hlen : nodes.length = (k + D).choose D := by
    have := l4.len
    simpa using this
  -- the dofs of the cell
  have hcellmem : ∀ i, i ∈ cell ↔ i ∈ sortedDofs mc := by
    intro i
    rw [c4]
    constructor
    · exact fun hi => ⟨0, cell, hcell, hi⟩
    · rintro ⟨e, l, h1, h2⟩
      obtain ⟨t, ht⟩ := (hsame D e).1 (by rw [h1]; rfl)
      have he : e < (D + 1).choose (D + 1) := ((hnum.1 D le_rfl).2 e).1 ⟨t, ht⟩
      rw [Nat.choose_self] at he
      obtain rfl : e = 0 := by omega
      rw [hcell] at h1
      rw [Option.some.inj h1]; exact h2
  have hfacetmem : ∀ i, i ∈ (mf.flatMap fun p => p.2) ↔ i ∈ sortedDofs mf := by
    intro i
    exact ((List.perm_insertionSort _ _).mem_iff (a := i) (l₁ := sortedDofs mf)).symm
  refine ⟨_, cell, mf, l3, hcell, f1, fun not_inds hni => ?_⟩
  simp only
  -- which dofs are removed
  have hmem : ∀ i, i ∈ not_inds ↔ ∃ d e l, 1 < d ∧ ids.at? d e = some l ∧ i ∈ l := by
    intro i
    rw [hni]
    constructor
    · intro hi
      split_ifs at hi with h2
      · exact ⟨D, 0, cell, by omega, hcell, hi⟩
      · rcases List.mem_append.1 hi with hi | hi
        · exact ⟨D, 0, cell, by omega, hcell, hi⟩
        · obtain ⟨e, l, g1, g2⟩ := (f4 i).1 ((hfacetmem i).1 hi)
          exact ⟨D - 1, e, l, by omega, g1, g2⟩
    · rintro ⟨d, e, l, h1, h2, h3⟩
      obtain ⟨t, ht⟩ := (hsame d e).1 (by rw [h2]; rfl)
      have hdD := hnum.2 d e t ht
      by_cases hd : d = D
      · have : i ∈ cell := (hcellmem i).2 ((c4 i).2 ⟨e, l, hd ▸ h2, h3⟩)
        split_ifs
        · exact this
        · exact List.mem_append_left _ this
      · have h2' : ¬ D = 2 := by omega
        rw [if_neg h2']
        refine List.mem_append_right _ ((hfacetmem i).2 ((f4 i).2 ⟨e, l, ?_, h3⟩))
        rw [show D - 1 = d by omega]; exact h2
  have huniq : ∀ i d e l d' e' l', ids.at? d e = some l → i ∈ l → ids.at? d' e' = some l' → i ∈ l' → d = d' ∧ e = e' := by
    intro i d e l d' e' l' h1 h2 h3 h4
    obtain ⟨p, -, hp⟩ := hpart.2 i ((hpart.1 d e l h1).2 i h2)
    have a1 := hp (d, e) ⟨l, h1, h2⟩
    have a2 := hp (d', e') ⟨l', h3, h4⟩
    have := a1.trans a2.symm
    exact Prod.mk.inj this
  obtain ⟨m0, a1, a2, a3, a4, a5⟩ := dim_dofs hs hnum hk l2 (d := 0) (by omega)
  obtain ⟨m1, b1, b2, b3, b4, b5⟩ := dim_dofs hs hnum hk l2 (d := 1) (by omega)
  set inds := (List.range ((k + D).choose D)).filter fun (i : ℕ) => decide (i ∉ not_inds) with hinds
  have hkept : ∀ i, i ∈ inds ↔ ∃ d e l, d ≤ 1 ∧ ids.at? d e = some l ∧ i ∈ l := by
    intro i
    rw [hinds, List.mem_filter, List.mem_range, decide_eq_true_iff, hmem, ← hlen]
    constructor
    · rintro ⟨hi, hno⟩
      obtain ⟨⟨d, e⟩, ⟨l, h1, h2⟩, -⟩ := hpart.2 i hi
      refine ⟨d, e, l, ?_, h1, h2⟩
      by_contra hd
      exact hno ⟨d, e, l, by omega, h1, h2⟩
    · rintro ⟨d, e, l, hd, h1, h2⟩
      refine ⟨(hpart.1 d e l h1).2 i h2, ?_⟩
      rintro ⟨d', e', l', hd', h3, h4⟩
      have := (huniq i d e l d' e' l' h1 h2 h3 h4).1
      omega
  have hnd : inds.Nodup := List.Nodup.filter _ List.nodup_range
  have hcount : inds.length = (D + 1) + (D + 1).choose 2 * (k - 1) := by
    have hp : inds.Perm (sortedDofs m0 ++ sortedDofs m1) := by
      rw [List.perm_ext_iff_of_nodup hnd]
      · intro i
        rw [hkept, List.mem_append, a4, b4]
        constructor
        · rintro ⟨d, e, l, hd, h1, h2⟩
          rcases Nat.le_one_iff_eq_zero_or_eq_one.1 hd with rfl | rfl
          · exact Or.inl ⟨e, l, h1, h2⟩
          · exact Or.inr ⟨e, l, h1, h2⟩
        · rintro (⟨e, l, h1, h2⟩ | ⟨e, l, h1, h2⟩)
          · exact ⟨0, e, l, by omega, h1, h2⟩
          · exact ⟨1, e, l, by omega, h1, h2⟩
      · rw [List.nodup_append']
        refine ⟨a2, b2, fun i h1 h2 => ?_⟩
        obtain ⟨e, l, h3, h4⟩ := (a4 i).1 h1
        obtain ⟨e', l', h5, h6⟩ := (b4 i).1 h2
        exact absurd (huniq i 0 e l 1 e' l' h3 h4 h5 h6).1 (by norm_num)
    rw [hp.length_eq, List.length_append, a5, b5]
    simp
  obtain ⟨RL, r1, r2, r3, r4, r5, r6⟩ := restrict_part (by omega) hs hv (fun _ _ _ => rfl) l4
    (indices := inds.map fun (i : ℕ) => (i : ℤ)) (by
      intro h
      rw [List.map_eq_nil_iff] at h
      rw [h] at hcount
      exact absurd (hcount.symm.trans List.length_nil) (by positivity)) (hnd.map fun a b h => by exact_mod_cast h) (by
      intro z hz
      obtain ⟨i, hi, rfl⟩ := List.mem_map.1 hz
      have : i < (k + D).choose D := List.mem_range.1 (List.mem_filter.1 hi).1
      simp only
      omega) (by
      intro l hl
      obtain ⟨x, -, rfl⟩ := List.mem_map.1 hl
      rfl)
  have hpts : ∀ d e t pts, HasEntity s.topo d e t → makePoints ℝ s d e k = some pts → ∃ l, ids.at? d e = some l ∧
      l.map (fun (i : ℕ) => nodes[i]?) = pts.map some := by
    intro d e t pts ht hp
    obtain ⟨l, hl⟩ := Option.isSome_iff_exists.1 ((hsame d e).2 ⟨t, ht⟩)
    have h3 := lagrange_dof_points s hs.2.1 k hk nodes ids l2 _ _ _ hl
    rw [hp, Option.getD_some] at h3
    exact ⟨l, hl, h3⟩
  refine ⟨RL, _, r1, r2, ?_, r6, fun w hw => hw.1, fun l hl => ?_, fun q hq d e t pts hd ht hp x hx => ?_⟩
  · rw [r3, List.length_map, hcount]
  · obtain ⟨i, hi, hi'⟩ := (r5 l).1 hl
    obtain ⟨i', hi2, hi3⟩ := List.mem_map.1 hi
    obtain rfl : i' = i := by exact_mod_cast hi3
    obtain ⟨d, e, l', hd, h1, h2⟩ := (hkept i').1 hi2
    simp only [List.getElem?_map] at hi'
    obtain ⟨x, hx, rfl⟩ := Option.map_eq_some_iff.1 hi'
    obtain ⟨t, ht⟩ := (hsame d e).1 (by rw [h1]; rfl)
    obtain ⟨pts, p1, -⟩ := make_points_mem (K := ℝ) s hs.2.1 k hk ht
    obtain ⟨l'', h3, h4⟩ := hpts d e t pts ht p1
    rw [h1] at h3
    obtain rfl := Option.some.inj h3
    have h5 : some x ∈ pts.map some := by rw [← h4, ← hx]; exact List.mem_map.2 ⟨i', h2, rfl⟩
    obtain ⟨y, hy, e1⟩ := List.mem_map.1 h5
    obtain rfl := Option.some.inj e1
    exact ⟨y, d, e, t, rfl, ht, hd, make_points_on s hs hk ht p1 hy⟩
  · obtain ⟨l, h1, h2⟩ := hpts d e t pts ht hp
    have h3 : some x ∈ l.map (fun (i : ℕ) => nodes[i]?) := by rw [h2]; exact List.mem_map_of_mem hx
    obtain ⟨i, hi, hi'⟩ := List.mem_map.1 h3
    have := hq (pointEvaluation x) ((r5 _).2 ⟨i, List.mem_map.2 ⟨i, (hkept i).2 ⟨d, e, l, hd, h1, hi⟩, rfl⟩, by
      simp only [List.getElem?_map, hi', Option.map_some]⟩)
    rwa [point_eval_scalar] at this

/-- The nodes of `CodimBubble` are evaluations at points of entities. -/
theorem bubble_nodes_on (hD : D = 1 ∨ D = 2 ∨ D = 3) (s : SimplexCell (Fin D → ℝ)) (hs : ProperSimplex ℝ s) (hnum : NumberedSimplex s)
    (hv : Increasing fun i : Fin (D + 1) => s.v i) (k c : ℕ) (hc : c ≤ D) (hk : D - c < k) {p : NodalPart D Unit}
    (hp : bubblePart s k c = some p) (l : Functional ℝ (Fin D → ℝ)) (hl : l ∈ p.nodes) :
    ∃ x e t, l = pointEvaluation x ∧ HasEntity s.topo (D - c) e t ∧ OnEntity s t x := by
  obtain ⟨p', q1, -, -, q4, -⟩ := bubble_part hD s hs hnum hv k c hc hk
  rw [hp] at q1
  obtain rfl := Option.some.inj q1
  obtain ⟨y, rfl⟩ := q4 l hl
  obtain ⟨r, el, nodes, ids, h1, h2, h3, h4, h5, h6, h7⟩ := codim_bubble_spec hD s hs hnum hv k c hc hk
  unfold bubblePart at hp
  rw [h1] at hp
  obtain rfl := Option.some.inj hp
  obtain ⟨i, hi⟩ := List.mem_iff_getElem?.1 hl
  obtain ⟨⟨d, e⟩, ⟨ds, a1, a2⟩, -⟩ := h4.1.2 i (List.getElem?_eq_some_iff.1 hi).1
  simp only at a1
  obtain ⟨t, ht⟩ := (h4.2 d e).1 (by rw [a1]; rfl)
  have hd : d = D - c := by
    by_contra hd
    rw [h6 d e t hd ht] at a1
    rw [← Option.some.inj a1] at a2
    simp at a2
  subst hd
  obtain ⟨pts, p1, ds', p2, p3⟩ := h5 e t ht
  rw [a1] at p2
  obtain rfl := Option.some.inj p2
  obtain ⟨m, hm⟩ := List.mem_iff_getElem?.1 a2
  have key : ∀ q : MvPolynomial (Fin D) ℝ, ∃ x, pts[m]? = some x ∧ eval x q = eval y q := by
    intro q
    have h8 := congrArg (fun L : List (Option ℝ) => L[m]?) (p3 q)
    simp only [List.getElem?_map, hm, Option.map_some] at h8
    rcases hx : pts[m]? with _ | x
    · rw [hx] at h8; simp at h8
    · rw [hx] at h8
      simp only [Option.map_some, Option.some.injEq] at h8
      rw [show nodes[i]? = some (pointEvaluation y) from hi, Option.map_some, Option.some.injEq, point_eval_scalar] at h8
      exact ⟨x, rfl, h8.symm⟩
  obtain ⟨x, hx, -⟩ := key 0
  have hxy : x = y := by
    funext j
    obtain ⟨x', hx', e'⟩ := key (X j)
    rw [hx] at hx'
    obtain rfl := Option.some.inj hx'
    simpa using e'
  exact ⟨y, e, t, rfl, ht, hxy ▸ make_points_on s hs (by omega) ht p1 (List.mem_of_getElem? hx)⟩

/-- Specification of the space: `P_k` plus the polynomials of a higher degree that vanish on the boundary and, on the tetrahedron, those
of degree `k + 1` that vanish on the edges. -/
noncomputable def KMVSpaceOf (s : SimplexCell (Fin D → ℝ)) (k : ℕ) : Submodule ℝ (Unit → MvPolynomial (Fin D) ℝ) :=
  if k = 1 then polySpace D 1
  else if D = 2 then polySpace D k ⊔ vanishSub s (if k = 5 then k + 2 else k + 1) 1
  else polySpace D k ⊔ vanishSub s (k + 1) 1 ⊔ vanishSub s (k + 2) 2

private theorem on_edge {s : SimplexCell (Fin D → ℝ)} (hs : ProperSimplex ℝ s) (hD : 1 ≤ D) {d e : ℕ} {t : List ℕ} (h : HasEntity s.topo d e t)
    (hd : d ≤ 1) {x : Fin D → ℝ} (hx : OnEntity s t x) : ∃ e' t', HasEntity s.topo 1 e' t' ∧ OnEntity s t' x := by
  rcases Nat.le_one_iff_eq_zero_or_eq_one.1 hd with rfl | rfl
  · obtain ⟨g1, g2, g3⟩ := hs.2.1.entity _ _ _ h
    obtain ⟨a, rfl⟩ : ∃ a, t = [a] := List.length_eq_one_iff.1 g2
    have ha : a < s.sd + 1 := g3 a (by simp)
    obtain ⟨b, hb, hab⟩ : ∃ b < s.sd + 1, b ≠ a := by
      rw [hs.1]
      by_cases h0 : a = 0
      · exact ⟨1, by omega, by omega⟩
      · exact ⟨0, by omega, by omega⟩
    obtain ⟨d', e', t', h', hS⟩ := hs.2.1.all {a, b} ⟨a, by simp⟩ (by
      intro i hi
      rw [Finset.mem_insert, Finset.mem_singleton] at hi
      rw [Finset.mem_range]
      rcases hi with rfl | rfl <;> assumption)
    obtain ⟨k1, k2, -⟩ := hs.2.1.entity _ _ _ h'
    have : d' = 1 := by
      have h3 := List.toFinset_card_of_nodup k1
      rw [hS, Finset.card_pair hab.symm, k2] at h3
      omega
    subst this
    refine ⟨e', t', h', onEntity_mono k1 g1 (fun c hc => ?_) hx⟩
    rw [← List.mem_toFinset, hS, List.mem_singleton.1 hc]
    simp
  · exact ⟨e, t, h, hx⟩

private theorem point_eval_inj {x y : Fin D → ℝ} (h : (pointEvaluation x : Functional ℝ (Fin D → ℝ)) = pointEvaluation y) : x = y := by
  simpa [pointEvaluation] using h

private theorem value_eq {q r : Unit → MvPolynomial (Fin D) ℝ} {x : Fin D → ℝ}
    (h : (pointEvaluation x : Functional ℝ (Fin D → ℝ)).onField (fieldC (fun _ : Unit => ([] : List ℕ)) q) =
      (pointEvaluation x : Functional ℝ (Fin D → ℝ)).onField (fieldC (fun _ : Unit => ([] : List ℕ)) r)) : eval x (q ()) = eval x (r ()) := by
  rwa [unit_scalar, unit_scalar, point_eval_scalar, point_eval_scalar] at h

private theorem zero_nodes {V : Submodule ℝ (Unit → MvPolynomial (Fin D) ℝ)} {s : SimplexCell (Fin D → ℝ)} {p : NodalPart D Unit}
    (h : IsNodalPart s (fun _ : Unit => []) V p) (hpt : ∀ l ∈ p.nodes, ∃ x, l = pointEvaluation x) {w : Unit → MvPolynomial (Fin D) ℝ} (hw : w ∈ V)
    (hz : ∀ x, pointEvaluation x ∈ p.nodes → eval x (w ()) = 0) : w = 0 := by
  refine part_separates h w hw fun l hl => ?_
  obtain ⟨x, rfl⟩ := hpt l hl
  rw [unit_scalar, point_eval_scalar]
  exact hz x hl

/-- C65: the space of the element, for the triangle. -/
theorem kmv_space_triangle (s : SimplexCell (Fin 2 → ℝ)) (hs : ProperSimplex ℝ s) (hnum : NumberedSimplex s) (k : ℕ) (hk : 2 ≤ k) (hk5 : k ≤ 5) :
    ∃ r, kmvSpace s k = some r ∧ IsNodalPart s (fun _ : Unit => []) (KMVSpaceOf s k) r ∧
      r.dim = 3 * k + ((if k = 5 then k + 2 else k + 1) - 1).choose 2 ∧ r.degree = (if k = 5 then k + 2 else k + 1) := by
  have hv : Increasing fun i : Fin (2 + 1) => s.v i := fun h => absurd h (by norm_num)
  obtain ⟨L, cell, facets, h1, h2, h3, h4⟩ := lagrange_lower (by norm_num) s hs hnum hv k (by omega)
  obtain ⟨RL, V, r1, r2, r3, r4, r5, r6, r7⟩ := h4 cell (by rw [if_pos rfl])
  set b := if k = 5 then k + 2 else k + 1 with hb
  have hbk : k < b := by rw [hb]; split_ifs <;> omega
  obtain ⟨B, b1, b2, b3, b4, b5, b6⟩ := bubble_part (by norm_num) s hs hnum hv b 0 (by norm_num) (by omega)
  have hbump : ∃ x, kmvBump 2 k = some x ∧ k + x.2 = b := by
    unfold kmvBump
    rw [if_neg (by omega), if_pos rfl, hb]
    by_cases h5 : k = 5
    · rw [if_neg (by omega), if_pos h5, if_pos h5]; exact ⟨_, rfl, rfl⟩
    · rw [if_pos (by omega), if_neg h5]; exact ⟨_, rfl, rfl⟩
  obtain ⟨x, x1, x2⟩ := hbump
  have hdef : kmvSpace s k = nodalEnriched s (fun _ : Unit => []) [RL, B] := by
    unfold kmvSpace
    rw [if_neg (by omega)]
    simp only [h1, h2, Option.bind_eq_bind, Option.bind_some, if_true, r1, x1, x2, b1]
  have hparts : ∀ i : Fin 2, IsNodalPart s (fun _ : Unit => ([] : List ℕ)) ((![V, bubbleSub s b 0] : Fin 2 → _) i)
      ((![RL, B] : Fin 2 → NodalPart 2 Unit) i) := by
    intro i
    fin_cases i
    · exact r4
    · exact b6
  have hlist : [RL, B] = List.ofFn (![RL, B] : Fin 2 → NodalPart 2 Unit) := by simp [List.ofFn_succ]
  have hsup : (⨆ i, (![V, bubbleSub s b 0] : Fin 2 → Submodule ℝ (Unit → MvPolynomial (Fin 2) ℝ)) i) = V ⊔ bubbleSub s b 0 := by
    apply le_antisymm
    · exact iSup_le fun i => by
        fin_cases i
        · exact le_sup_left
        · exact le_sup_right
    · exact sup_le (le_iSup (![V, bubbleSub s b 0] : Fin 2 → Submodule ℝ (Unit → MvPolynomial (Fin 2) ℝ)) 0)
        (le_iSup (![V, bubbleSub s b 0] : Fin 2 → Submodule ℝ (Unit → MvPolynomial (Fin 2) ℝ)) 1)
  have hspace : V ⊔ bubbleSub s b 0 = KMVSpaceOf s k := by
    unfold KMVSpaceOf
    rw [if_neg (by omega), if_pos rfl, ← hb, bubbleSub_eq s hs hnum (by norm_num) (by omega)]
    apply le_antisymm
    · exact sup_le (r5.trans le_sup_left) le_sup_right
    · refine sup_le (fun p hp => ?_) le_sup_right
      obtain ⟨a, ha, ha'⟩ := part_interp r4 p
      rw [← add_sub_cancel a p]
      refine Submodule.add_mem_sup ha ?_
      have hdeg : ((p - a) ()).totalDegree ≤ k := mem_polySpace.1 (Submodule.sub_mem _ hp (r5 ha))
      have : p - a ∈ bubbleSub s k 0 := by
        refine ⟨hdeg, fun d e t pts hd ht hpts x hx => ?_⟩
        have hdD := hnum.2 d e t ht
        refine r7 _ (fun l hl => ?_) d e t pts (by omega) ht hpts x hx
        obtain ⟨y, -, -, -, rfl, -⟩ := r6 l hl
        rw [point_eval_scalar, Pi.sub_apply, map_sub, value_eq (ha' _ hl), sub_self]
      rw [bubbleSub_eq s hs hnum (by norm_num) (by omega)] at this
      exact vanishSub_mono hbk.le this
  have hbd : ∀ w ∈ bubbleSub s b 0, ∀ x, pointEvaluation x ∈ RL.nodes → eval x (w ()) = 0 := by
    intro w hw x hx
    obtain ⟨y, d, e, t, h1, h2, h3, h4⟩ := r6 _ hx
    obtain rfl := point_eval_inj h1
    exact bubble_space_boundary s hs (by norm_num) (by omega) hw h2 (by omega) x h4
  have hpt : ∀ l ∈ RL.nodes, ∃ x, l = pointEvaluation x := fun l hl => by
    obtain ⟨x, -, -, -, h, -⟩ := r6 l hl
    exact ⟨x, h⟩
  have hfn : [RL, B].flatMap NodalPart.nodes = RL.nodes ++ B.nodes := by simp
  have hiff := nodal_enriched_iff (by norm_num) s hs hv (fun _ : Unit => ([] : List ℕ)) (fun _ _ _ => rfl) (by norm_num) _ _ hparts
  rw [← hlist, hsup, hfn] at hiff
  have key : ∀ a ∈ V, ∀ c ∈ bubbleSub s b 0, (∀ l ∈ RL.nodes ++ B.nodes, l.onField (fieldC (fun _ : Unit => ([] : List ℕ)) (a + c)) = 0) →
      a = 0 ∧ c = 0 := by
    intro a ha c hc hz
    have ea : a = 0 := by
      refine zero_nodes r4 hpt ha fun x hx => ?_
      have := hz _ (List.mem_append_left _ hx)
      rwa [unit_scalar, point_eval_scalar, Pi.add_apply, map_add, hbd c hc x hx, add_zero] at this
    refine ⟨ea, ?_⟩
    rw [ea, zero_add] at hz
    exact part_separates b6 c hc fun l hl => hz l (List.mem_append_right _ hl)
  obtain ⟨r, hr⟩ := hiff.2 ⟨fun w hw h0 => by
      rw [Fin.sum_univ_two] at h0
      obtain ⟨e0, e1⟩ := key (w 0) (hw 0) (w 1) (hw 1) (fun l _ => by
        rw [h0]
        have := onFieldC_comb (fun _ : Unit => ([] : List ℕ)) l (0 : Fin 0 → ℝ) (fun _ => 0)
        simpa using this)
      intro i
      fin_cases i
      · exact e0
      · exact e1,
    fun w hw hz => by
      obtain ⟨a, ha, c, hc, rfl⟩ := Submodule.mem_sup.1 hw
      obtain ⟨e0, e1⟩ := key a ha c hc hz
      rw [e0, e1, add_zero]⟩
  refine ⟨r, hdef.trans hr, ?_⟩
  rw [hlist] at hr
  obtain ⟨g1, g2, g3, g4, ⟨i, g5⟩, -⟩ := nodal_enriched_spec (by norm_num) s hs hv (fun _ : Unit => ([] : List ℕ)) (fun _ _ _ => rfl) (by norm_num) _ _ hparts hr
  rw [hsup, hspace] at g1
  refine ⟨g1, ?_, ?_⟩
  · rw [g3, Fin.sum_univ_two]
    simp only [Matrix.cons_val_zero, Matrix.cons_val_one]
    rw [r3, b3]
    norm_num
    omega
  · have g6 : B.degree ≤ r.degree := g4 1
    rw [b2] at g6
    fin_cases i
    · have g7 : RL.degree = r.degree := g5
      omega
    · have g7 : B.degree = r.degree := g5
      omega

/-- C65: the space of the element, for the tetrahedron. -/
theorem kmv_space_tetrahedron (s : SimplexCell (Fin 3 → ℝ)) (hs : ProperSimplex ℝ s) (hnum : NumberedSimplex s) (k : ℕ) (hk : 2 ≤ k) (hk3 : k ≤ 3) :
    ∃ r, kmvSpace s k = some r ∧ IsNodalPart s (fun _ : Unit => []) (KMVSpaceOf s k) r ∧
      r.dim = 4 + 6 * (k - 1) + 4 * k.choose 2 + (k + 1).choose 3 ∧ r.degree = k + 2 := by
  have hv : Increasing fun i : Fin (3 + 1) => s.v i := fun h => absurd h (by norm_num)
  obtain ⟨L, cell, facets, h1, h2, h3, h4⟩ := lagrange_lower (by norm_num) s hs hnum hv k (by omega)
  obtain ⟨RL, V, r1, r2, r3, r4, r5, r6, r7⟩ := h4 _ rfl
  rw [if_neg (by norm_num)] at r1
  obtain ⟨B, b1, b2, b3, b4, b5, b6⟩ := bubble_part (by norm_num) s hs hnum hv (k + 2) 0 (by norm_num) (by omega)
  obtain ⟨F, f1, f2, f3, f4, f5, f6⟩ := bubble_part (by norm_num) s hs hnum hv (k + 1) 1 (by norm_num) (by omega)
  have x1 : kmvBump 3 k = some (1, 2) := by
    unfold kmvBump
    rw [if_neg (by omega), if_neg (by norm_num), if_pos rfl, if_pos (by omega)]
  have hdef : kmvSpace s k = nodalEnriched s (fun _ : Unit => []) [RL, B, F] := by
    unfold kmvSpace
    rw [if_neg (by omega)]
    simp only [h1, h2, h3, Option.bind_eq_bind, Option.bind_some, if_neg (by norm_num : ¬ (3 = 2)), if_true, Option.map_some, r1, x1, b1, f1]
  have hparts : ∀ i : Fin 3, IsNodalPart s (fun _ : Unit => ([] : List ℕ)) ((![V, bubbleSub s (k + 2) 0, bubbleSub s (k + 1) 1] : Fin 3 → _) i)
      ((![RL, B, F] : Fin 3 → NodalPart 3 Unit) i) := by
    intro i
    fin_cases i
    · exact r4
    · exact b6
    · exact f6
  have hlist : [RL, B, F] = List.ofFn (![RL, B, F] : Fin 3 → NodalPart 3 Unit) := by simp [List.ofFn_succ]
  set W : Fin 3 → Submodule ℝ (Unit → MvPolynomial (Fin 3) ℝ) := ![V, bubbleSub s (k + 2) 0, bubbleSub s (k + 1) 1] with hW
  have hsup : (⨆ i, W i) = V ⊔ bubbleSub s (k + 2) 0 ⊔ bubbleSub s (k + 1) 1 := by
    apply le_antisymm
    · exact iSup_le fun i => by
        fin_cases i
        · exact le_sup_left.trans le_sup_left
        · exact le_sup_right.trans le_sup_left
        · exact le_sup_right
    · exact sup_le (sup_le (le_iSup W 0) (le_iSup W 1)) (le_iSup W 2)
  have hF : bubbleSub s (k + 1) 1 ≤ vanishSub s (k + 1) 1 := fun w hw =>
    ⟨hw.1, fun e t ht x hx => bubble_space_boundary s hs (by norm_num) (by omega) hw ht (by norm_num) x hx⟩
  have hspace : V ⊔ bubbleSub s (k + 2) 0 ⊔ bubbleSub s (k + 1) 1 = KMVSpaceOf s k := by
    unfold KMVSpaceOf
    rw [if_neg (by omega), if_neg (by norm_num)]
    have hB := bubbleSub_eq s hs hnum (by norm_num) (by omega : 1 ≤ k + 2)
    apply le_antisymm
    · refine sup_le (sup_le (r5.trans (le_sup_left.trans le_sup_left)) ?_) (hF.trans (le_sup_right.trans le_sup_left))
      rw [hB]
      exact le_sup_right
    · have hedge : vanishSub s (k + 1) 1 ≤ V ⊔ bubbleSub s (k + 2) 0 ⊔ bubbleSub s (k + 1) 1 := by
        intro q hq
        obtain ⟨f, hf, hf'⟩ := part_interp f6 q
        rw [← sub_add_cancel q f]
        refine Submodule.add_mem_sup (Submodule.mem_sup_right ?_) hf
        have hdiff := Submodule.sub_mem _ hq (hF hf)
        have : q - f ∈ bubbleSub s (k + 1) 0 := by
          refine ⟨hdiff.1, fun d e t pts hd ht hpts x hx => ?_⟩
          have hdD := hnum.2 d e t ht
          by_cases hd2 : d = 2
          · subst hd2
            refine f5 _ ?_ e t pts ht hpts x hx
            intro l hl
            obtain ⟨y, rfl⟩ := f4 l hl
            rw [point_eval_scalar, Pi.sub_apply, map_sub, value_eq (hf' _ hl), sub_self]
          · have hd1 : d ≤ 1 := by omega
            obtain ⟨e', t', ht', hx'⟩ := on_edge hs (by norm_num) ht hd1 (make_points_on s hs (by omega) ht hpts hx)
            exact hdiff.2 e' t' ht' x hx'
        rw [bubbleSub_eq s hs hnum (by norm_num) (by omega)] at this
        rw [hB]
        exact vanishSub_mono (by omega) this
      refine sup_le (sup_le (fun p hp => ?_) hedge) (by rw [hB]; exact le_sup_right.trans le_sup_left)
      obtain ⟨a, ha, ha'⟩ := part_interp r4 p
      rw [← add_sub_cancel a p]
      refine Submodule.add_mem _ (Submodule.mem_sup_left (Submodule.mem_sup_left ha)) (hedge ?_)
      have hdeg : ((p - a) ()).totalDegree ≤ k := mem_polySpace.1 (Submodule.sub_mem _ hp (r5 ha))
      refine ⟨hdeg.trans (by omega), fun e t ht x hx => ?_⟩
      refine closure_lattice s hs (by norm_num) (by omega) hdeg ht (fun d' e' t' pts h' hsub hpts y hy => ?_) x hx
      obtain ⟨g1, g2, -⟩ := hs.2.1.entity _ _ _ ht
      obtain ⟨g3, g4, -⟩ := hs.2.1.entity _ _ _ h'
      have hle : t'.toFinset ⊆ t.toFinset := fun a ha => List.mem_toFinset.2 (hsub a (List.mem_toFinset.1 ha))
      have hc := Finset.card_le_card hle
      rw [List.toFinset_card_of_nodup g1, List.toFinset_card_of_nodup g3, g2, g4] at hc
      refine r7 _ (fun l hl => ?_) d' e' t' pts (by omega) h' hpts y hy
      obtain ⟨y, -, -, -, rfl, -⟩ := r6 l hl
      rw [point_eval_scalar, Pi.sub_apply, map_sub, value_eq (ha' _ hl), sub_self]
  have hpt : ∀ l ∈ RL.nodes, ∃ x, l = pointEvaluation x := fun l hl => by
    obtain ⟨x, -, -, -, h, -⟩ := r6 l hl
    exact ⟨x, h⟩
  have hbd : ∀ j c, c ≤ 1 → 1 ≤ j → ∀ w ∈ bubbleSub s j c, ∀ x, pointEvaluation x ∈ RL.nodes → eval x (w ()) = 0 := by
    intro j c hc hj w hw x hx
    obtain ⟨y, d, e, t, h1, h2, h3, h4⟩ := r6 _ hx
    obtain rfl := point_eval_inj h1
    exact bubble_space_boundary s hs (by norm_num) hj hw h2 (by omega) x h4
  have hbf : ∀ w ∈ bubbleSub s (k + 2) 0, ∀ l ∈ F.nodes, l.onField (fieldC (fun _ : Unit => ([] : List ℕ)) w) = 0 := by
    intro w hw l hl
    obtain ⟨x, e, t, rfl, ht, hx⟩ := bubble_nodes_on (by norm_num) s hs hnum hv (k + 1) 1 (by norm_num) (by omega) f1 l hl
    rw [unit_scalar, point_eval_scalar]
    exact bubble_space_boundary s hs (by norm_num) (by omega) hw ht (by norm_num) x hx
  have hfn : [RL, B, F].flatMap NodalPart.nodes = RL.nodes ++ (B.nodes ++ F.nodes) := by simp
  have hiff := nodal_enriched_iff (by norm_num) s hs hv (fun _ : Unit => ([] : List ℕ)) (fun _ _ _ => rfl) (by norm_num) _ _ hparts
  rw [← hlist, hsup, hfn] at hiff
  have key : ∀ a ∈ V, ∀ c ∈ bubbleSub s (k + 2) 0, ∀ f ∈ bubbleSub s (k + 1) 1,
      (∀ l ∈ RL.nodes ++ (B.nodes ++ F.nodes), l.onField (fieldC (fun _ : Unit => ([] : List ℕ)) (a + c + f)) = 0) → a = 0 ∧ c = 0 ∧ f = 0 := by
    intro a ha c hc f hf hz
    have ea : a = 0 := by
      refine zero_nodes r4 hpt ha fun x hx => ?_
      have := hz _ (List.mem_append_left _ hx)
      rwa [unit_scalar, point_eval_scalar, Pi.add_apply, Pi.add_apply, map_add, map_add, hbd _ _ (by norm_num) (by omega) c hc x hx,
        hbd _ _ le_rfl (by omega) f hf x hx, add_zero, add_zero] at this
    rw [ea, zero_add] at hz
    have ef : f = 0 := by
      refine zero_nodes f6 f4 hf fun x hx => ?_
      have h7 := hz _ (List.mem_append_right _ (List.mem_append_right _ hx))
      have h8 := hbf c hc _ hx
      rw [unit_scalar, point_eval_scalar] at h7 h8
      rwa [Pi.add_apply, map_add, h8, zero_add] at h7
    rw [ef, add_zero] at hz
    exact ⟨ea, part_separates b6 c hc fun l hl => hz l (List.mem_append_right _ (List.mem_append_left _ hl)), ef⟩
  obtain ⟨r, hr⟩ := hiff.2 ⟨fun w hw h0 => by
      rw [Fin.sum_univ_three] at h0
      obtain ⟨e0, e1, e2⟩ := key (w 0) (hw 0) (w 1) (hw 1) (w 2) (hw 2) (fun l _ => by
        rw [h0]
        have := onFieldC_comb (fun _ : Unit => ([] : List ℕ)) l (0 : Fin 0 → ℝ) (fun _ => 0)
        simpa using this)
      intro i
      fin_cases i
      · exact e0
      · exact e1
      · exact e2,
    fun w hw hz => by
      obtain ⟨u, hu, f, hf, rfl⟩ := Submodule.mem_sup.1 hw
      obtain ⟨a, ha, c, hc, rfl⟩ := Submodule.mem_sup.1 hu
      obtain ⟨e0, e1, e2⟩ := key a ha c hc f hf hz
      rw [e0, e1, e2, add_zero, add_zero]⟩
  refine ⟨r, hdef.trans hr, ?_⟩
  rw [hlist] at hr
  obtain ⟨g1, g2, g3, g4, ⟨i, g5⟩, -⟩ := nodal_enriched_spec (by norm_num) s hs hv (fun _ : Unit => ([] : List ℕ)) (fun _ _ _ => rfl) (by norm_num) _ _ hparts hr
  rw [hsup, hspace] at g1
  refine ⟨g1, ?_, ?_⟩
  · rw [g3, Fin.sum_univ_three]
    simp only [Matrix.cons_val_zero, Matrix.cons_val_one, Matrix.cons_val]
    rw [r3, b3, f3]
    clear_value W
    rcases (by omega : k = 2 ∨ k = 3) with e | e <;> rw [e] <;> rfl
  · have g6 : B.degree ≤ r.degree := g4 1
    rw [b2] at g6
    fin_cases i
    · have g7 : RL.degree = r.degree := g5
      omega
    · have g7 : B.degree = r.degree := g5
      omega
    · have g7 : F.degree = r.degree := g5
      omega

end
end FIAT
