/-
C57: bubble elements (FIAT/bubble.py).
-/
import Verif.Lemmas.RestrictedElement
import Verif.Lemmas.LagrangeCore
import Verif.Lemmas.EntityQuot
import Verif.Lemmas.ScalarBlocks
import Verif.Lemmas.FacetTrace

namespace FIAT
open MvPolynomial
section
variable {D : ℕ}

/-- Specification of the space of `CodimBubble(cell, k, c)`: the polynomials of degree at most `k` that vanish at the points of the Lagrange
lattice on all entities of dimension other than `D - c`. -/
def BubbleSpace (s : SimplexCell (Fin D → ℝ)) (k c : ℕ) (w : Unit → MvPolynomial (Fin D) ℝ) : Prop :=
  (w ()).totalDegree ≤ k ∧
    ∀ d e t pts, d ≠ D - c → HasEntity s.topo d e t → makePoints ℝ s d e k = some pts → ∀ x ∈ pts, eval x (w ()) = 0

private theorem unit_field (w : Unit → MvPolynomial (Fin D) ℝ) : fieldC (fun _ : Unit => ([] : List ℕ)) w = scalarField (w ()) := by
  funext c
  simp [scalarField, fieldC]

private theorem points_len {s : SimplexCell (Fin D → ℝ)} (hs : ProperSimplex ℝ s) (hnum : NumberedSimplex s) {d e : ℕ} {t : List ℕ}
    (h : HasEntity s.topo d e t) {k : ℕ} (hk : 1 ≤ k) {pts : List (Fin D → ℝ)} (hp : makePoints ℝ s d e k = some pts) :
    pts.length = (k - 1).choose d := by
  rcases Nat.eq_zero_or_pos d with rfl | hd
  · obtain ⟨pts', p1, p2⟩ := make_points_mem (K := ℝ) s hs.2.1 k hk h
    rw [hp] at p1
    obtain rfl := Option.some.inj p1
    have hnd := make_points_nodup s hs.2.1 hs.2.2.1 k hk h hp
    obtain ⟨h1, h2, h3⟩ := hs.2.1.entity _ _ _ h
    obtain ⟨a, rfl⟩ : ∃ a, t = [a] := List.length_eq_one_iff.1 h2
    rw [Nat.choose_zero_right]
    have hβ : ∀ β : ℕ → ℕ, (∀ i, β i ≠ 0 ↔ i ∈ [a]) → ∑ i ∈ Finset.range (s.sd + 1), β i = k → β = fun i => if i = a then k else 0 := by
      intro β b1 b2
      have b3 : ∀ i, i ≠ a → β i = 0 := fun i hi => by
        by_contra hc
        have := (b1 i).1 hc
        simp at this; exact hi this
      rw [Finset.sum_eq_single_of_mem a (Finset.mem_range.2 (h3 a (by simp))) (fun i _ hi => b3 i hi)] at b2
      funext i
      split_ifs with hi
      · rw [hi, b2]
      · exact b3 i hi
    have hmem : ∀ x, x ∈ pts ↔ x = baryPt ℝ s.v (s.sd + 1) k (fun i => if i = a then k else 0) := by
      intro x
      rw [p2]
      constructor
      · rintro ⟨β, b1, b2, rfl⟩
        rw [hβ β b1 b2]
      · rintro rfl
        refine ⟨_, fun i => ?_, ?_, rfl⟩
        · simp; omega
        · rw [Finset.sum_ite_eq' ]
          rw [if_pos (Finset.mem_range.2 (h3 a (by simp)))]
    have : pts.toFinset = {baryPt ℝ s.v (s.sd + 1) k (fun i => if i = a then k else 0)} := by
      ext x; rw [List.mem_toFinset, hmem, Finset.mem_singleton]
    rw [← List.toFinset_card_of_nodup hnd, this, Finset.card_singleton]
  · exact entity_points_length hs hnum hd h k hk hp

private theorem sum_const_len {ι : Type} (m : List ι) (f : ι → List ℕ) (L : ℕ) (h : ∀ p ∈ m, (f p).length = L) :
    (m.flatMap f).length = m.length * L := by
  induction m with
  | nil => simp
  | cons a m ih =>
    rw [List.flatMap_cons, List.length_append, h a List.mem_cons_self, ih fun p hp => h p (List.mem_cons_of_mem _ hp), List.length_cons]
    ring

private theorem sortedDofs_perm (m : Dict ℕ (List ℕ)) : (sortedDofs m).Perm (m.flatMap fun p => p.2) := List.perm_insertionSort _ _

/-- The dofs of the entities of one dimension. -/
theorem dim_dofs {s : SimplexCell (Fin D → ℝ)} (hs : ProperSimplex ℝ s) (hnum : NumberedSimplex s) {k : ℕ} (hk : 1 ≤ k)
    {nodes : List (Fin D → ℝ)} {ids : EntityIds ℕ} (hdual : lagrangeDual ℝ s k = some (nodes, ids)) {d : ℕ} (hd : d ≤ D) :
    ∃ m, Dict.get? ids d = some m ∧ (sortedDofs m).Nodup ∧ (∀ i ∈ sortedDofs m, i < nodes.length) ∧
      (∀ i, i ∈ sortedDofs m ↔ ∃ e l, ids.at? d e = some l ∧ i ∈ l) ∧
      (sortedDofs m).length = (D + 1).choose (d + 1) * (k - 1).choose d := by
  obtain ⟨hwf1, hwf2⟩ := lagrange_ids_wf hdual
  obtain ⟨hsame, hpart, -⟩ := lagrange_dofs_partition s hs.2.1 k hk nodes ids hdual
  obtain ⟨t0, ht0⟩ := ((hnum.1 d hd).2 0).2 (Nat.choose_pos (by omega))
  obtain ⟨l0, hl0⟩ := Option.isSome_iff_exists.1 ((hsame d 0).2 ⟨t0, ht0⟩)
  obtain ⟨m, hm, -⟩ := Option.bind_eq_some_iff.1 hl0
  have hmw : Dict.WF m := hwf2 _ (Dict.mem_of_get? hm)
  have hat : ∀ e, ids.at? d e = Dict.get? m e := fun e => by unfold EntityIds.at?; rw [hm]; rfl
  have hmem : ∀ i, i ∈ sortedDofs m ↔ ∃ e l, ids.at? d e = some l ∧ i ∈ l := by
    intro i
    rw [(sortedDofs_perm m).mem_iff, List.mem_flatMap]
    constructor
    · rintro ⟨⟨e, l⟩, h1, h2⟩
      exact ⟨e, l, by rw [hat]; exact Dict.get?_of_mem hmw h1, h2⟩
    · rintro ⟨e, l, h1, h2⟩
      rw [hat] at h1
      exact ⟨(e, l), Dict.mem_of_get? h1, h2⟩
  refine ⟨m, hm, ?_, ?_, hmem, ?_⟩
  · rw [(sortedDofs_perm m).nodup_iff, List.nodup_flatMap]
    refine ⟨fun p hp => (hpart.1 d p.1 p.2 (by rw [hat]; exact Dict.get?_of_mem hmw hp)).1, ?_⟩
    have hk : (m.map Prod.fst).Nodup := hmw
    rw [List.Nodup, List.pairwise_map] at hk
    refine List.Pairwise.imp_of_mem ?_ hk
    intro p q hp hq hpq i hi hi'
    have h1 : ids.at? d p.1 = some p.2 := by rw [hat]; exact Dict.get?_of_mem hmw hp
    have h2 : ids.at? d q.1 = some q.2 := by rw [hat]; exact Dict.get?_of_mem hmw hq
    obtain ⟨z, -, hu⟩ := hpart.2 i ((hpart.1 _ _ _ h1).2 i hi)
    have := (hu (d, p.1) ⟨_, h1, hi⟩).trans (hu (d, q.1) ⟨_, h2, hi'⟩).symm
    exact hpq (Prod.mk.inj this).2
  · intro i hi
    obtain ⟨e, l, h1, h2⟩ := (hmem i).1 hi
    exact (hpart.1 _ _ _ h1).2 i h2
  · rw [(sortedDofs_perm m).length_eq, sum_const_len m _ ((k - 1).choose d)]
    · congr 1
      have hkeys : (m.map Prod.fst).toFinset = Finset.range ((D + 1).choose (d + 1)) := by
        ext e
        rw [List.mem_toFinset, Finset.mem_range, ← (hnum.1 d hd).2 e, ← hsame, hat]
        exact Dict.get?_isSome_iff.symm
      rw [← List.length_map (f := Prod.fst), ← List.toFinset_card_of_nodup (show (m.map Prod.fst).Nodup from hmw), hkeys, Finset.card_range]
    · intro p hp
      have h1 : ids.at? d p.1 = some p.2 := by rw [hat]; exact Dict.get?_of_mem hmw hp
      obtain ⟨t, ht⟩ := (hsame d p.1).1 (by rw [h1]; rfl)
      obtain ⟨pts, p1, -⟩ := make_points_mem (K := ℝ) s hs.2.1 k hk ht
      have := lagrange_dof_points s hs.2.1 k hk nodes ids hdual d p.1 p.2 h1
      rw [p1, Option.getD_some] at this
      have := congrArg List.length this
      rw [List.length_map, List.length_map] at this
      rw [this, points_len hs hnum ht hk p1]

/-- The new numbers of a restricted entity: all dofs of the chosen dimension are kept. -/
private theorem kept_points {nodes : List (Functional ℝ (Fin D → ℝ))} {newNodes : List (Functional ℝ (Fin D → ℝ))} {kept l l' : List ℕ}
    (h : l'.map (fun (j : ℕ) => kept[j]?) = l.map some) (hn : ∀ (j : ℕ), newNodes[j]? = (kept[j]?).bind fun (i : ℕ) => nodes[i]?) :
    l'.map (fun (j : ℕ) => newNodes[j]?) = l.map fun (i : ℕ) => nodes[i]? := by
  have := congrArg (List.map fun o : Option ℕ => o.bind fun (i : ℕ) => nodes[i]?) h
  rw [List.map_map, List.map_map] at this
  simp only [hn]
  exact this

/-- C57: `CodimBubble(cell, k, c)` for `k > D - c` (interval with increasing vertices, triangle, tetrahedron): its dofs are the values at
the Lagrange points on the entities of dimension `D - c`, other entities have no dofs, and `tabulate` returns the basis of `BubbleSpace`
dual to them. -/
theorem codim_bubble_spec (hD : D = 1 ∨ D = 2 ∨ D = 3) (s : SimplexCell (Fin D → ℝ)) (hs : ProperSimplex ℝ s) (hnum : NumberedSimplex s)
    (hv : Increasing fun i : Fin (D + 1) => s.v i) (k c : ℕ) (hc : c ≤ D) (hk : D - c < k) :
    ∃ (r : ℕ) (el : PolySet ℝ (Fin D → ℝ) ((k + D).choose D) r Unit) (nodes : List (Functional ℝ (Fin D → ℝ))) (ids : EntityIds ℕ),
      codimBubble s k c = some ⟨r, el, nodes, ids⟩ ∧ r = (D + 1).choose (D - c + 1) * (k - 1).choose (D - c) ∧ nodes.length = r ∧
      ProperDofs s nodes ids ∧
      (∀ e t, HasEntity s.topo (D - c) e t → ∃ pts, makePoints ℝ s (D - c) e k = some pts ∧
        DofsOf nodes ids (D - c) e fun p => pts.map fun x => eval x p) ∧
      (∀ d e t, d ≠ D - c → HasEntity s.topo d e t → ids.at? d e = some []) ∧
      IsNodalC (fun _ : Unit => []) (BubbleSpace s k c) nodes el := by
  have hk1 : 1 ≤ k := by omega
  obtain ⟨el, ids, pts, h1, h2, h3, h4, φ, h5, h6, h7, h8⟩ := lagrange_core hD s hs hv k hk1
  obtain ⟨hsame, hpart, -⟩ := lagrange_dofs_partition s hs.2.1 k hk1 pts ids h2
  obtain ⟨m, m1, m2, m3, m4, m5⟩ := dim_dofs hs hnum hk1 h2 (d := D - c) (by omega)
  have hassoc := lagrange_dof_points s hs.2.1 k hk1 pts ids h2
  have hget : ∀ (i : ℕ) l, (pts.map pointEvaluation : List (Functional ℝ (Fin D → ℝ)))[i]? = some l → ∃ x, pts[i]? = some x ∧ l = pointEvaluation x := by
    intro i l hl
    rw [List.getElem?_map] at hl
    obtain ⟨x, hx, e⟩ := Option.map_eq_some_iff.1 hl
    exact ⟨x, hx, e.symm⟩
  have hpos : 0 < (sortedDofs m).length := by
    rw [m5]
    exact Nat.mul_pos (Nat.choose_pos (by omega)) (Nat.choose_pos (by omega))
  have hidx : ∀ i : ℕ, (i : ℤ) ∈ (sortedDofs m).map (fun (i : ℕ) => (i : ℤ)) ↔ i ∈ sortedDofs m := by
    intro i
    rw [List.mem_map]
    exact ⟨fun ⟨j, hj, e⟩ => by rwa [← (by exact_mod_cast e : j = i)], fun h => ⟨i, h, rfl⟩⟩
  have hnd : ((sortedDofs m).map fun (i : ℕ) => (i : ℤ)).Nodup := List.Nodup.map (fun a b h => by simpa using h) m2
  have hne : (sortedDofs m).map (fun (i : ℕ) => (i : ℤ)) ≠ [] := by
    intro h
    rw [List.map_eq_nil_iff] at h
    rw [h] at hpos; simp at hpos
  have hpart' : DofsPartition ids ((k + D).choose D) := h3 ▸ hpart
  have hder : ∀ l ∈ (pts.map pointEvaluation : List (Functional ℝ (Fin D → ℝ))), l.deriv = [] := by
    intro l hl
    obtain ⟨x, -, rfl⟩ := List.mem_map.1 hl
    rfl
  have hmax : ∀ l ∈ (pts.map pointEvaluation : List (Functional ℝ (Fin D → ℝ))), ¬ 0 < l.maxDerivOrder := by
    intro l hl
    obtain ⟨x, -, rfl⟩ := List.mem_map.1 hl
    simp [Functional.maxDerivOrder, pointEvaluation]
  obtain ⟨el', kept, nn, ids', r1, r2, ⟨r3, r4⟩, r5⟩ := restricted_element_nodal (by omega : 1 ≤ D) φ (fun _ : Unit => ([] : List ℕ))
    (fun _ _ _ => rfl) el h4 h5 h6 (pts.map pointEvaluation) (by rw [List.length_map, h3])
    (fun l hl => by obtain ⟨x, -, rfl⟩ := List.mem_map.1 hl; exact wf_eval x)
    (by
      intro i l hl j
      obtain ⟨x, hx, rfl⟩ := hget i l hl
      rw [unit_field, point_eval_scalar]
      exact h7 i x hx j)
    (lagrange_ids_wf h2) hpart' hne hnd
    (by
      intro z hz
      obtain ⟨i, hi, rfl⟩ := List.mem_map.1 hz
      have := m3 i hi
      omega)
    (fun ⟨l, hl, h⟩ => absurd h (hmax l hl)) (Or.inr hder)
  obtain ⟨k1, k2, k3, k4, k5, k6⟩ := restrict_spec (lagrange_ids_wf h2) hpart' _ r1
  have hlen : ((sortedDofs m).map fun (i : ℕ) => (i : ℤ)).length = (D + 1).choose (D - c + 1) * (k - 1).choose (D - c) := by
    rw [List.length_map, m5]
  refine ⟨_, el', nn, ids', ?_, hlen, r3, ⟨?_, ?_⟩, ?_, ?_, ?_⟩
  · unfold codimBubble
    simp only [h1, h2, Option.bind_eq_bind, Option.bind_some, if_pos hc, m1]
    rw [if_neg (by omega)]
    exact r2
  · rw [r3, ← k3]; exact k5
  · intro d e
    rw [k4]; exact hsame d e
  · intro e t ht
    obtain ⟨ps, p1, -⟩ := make_points_mem (K := ℝ) s hs.2.1 k hk1 ht
    obtain ⟨l, hl⟩ := Option.isSome_iff_exists.1 ((hsame (D - c) e).2 ⟨t, ht⟩)
    obtain ⟨l', hl'⟩ := Option.isSome_iff_exists.1 ((k4 (D - c) e).2 (by rw [hl]; rfl))
    have h9 := k6 _ _ _ _ hl hl'
    rw [List.filter_eq_self.2 (fun i hi => by
      rw [decide_eq_true_iff, hidx]
      exact (m4 i).2 ⟨e, l, hl, hi⟩)] at h9
    have h10 := kept_points h9 r4
    have h11 := hassoc _ _ _ hl
    rw [p1, Option.getD_some] at h11
    refine ⟨ps, p1, l', hl', fun p => ?_⟩
    have e1 : l.map (fun (i : ℕ) => (pts.map pointEvaluation : List (Functional ℝ (Fin D → ℝ)))[i]?) = ps.map fun x => some (pointEvaluation x) := by
      have := congrArg (List.map (Option.map (pointEvaluation : (Fin D → ℝ) → Functional ℝ (Fin D → ℝ)))) h11
      rw [List.map_map, List.map_map] at this
      simp only [List.getElem?_map]
      exact this
    rw [e1] at h10
    have := congrArg (List.map (Option.map fun node : Functional ℝ (Fin D → ℝ) => node.onField (scalarField p))) h10
    rw [List.map_map, List.map_map] at this
    refine this.trans ?_
    rw [List.map_map]
    refine List.map_congr_left fun x _ => ?_
    simp only [Function.comp_apply, Option.map_some, point_eval_scalar]
  · intro d e t hd ht
    obtain ⟨l, hl⟩ := Option.isSome_iff_exists.1 ((hsame d e).2 ⟨t, ht⟩)
    obtain ⟨l', hl'⟩ := Option.isSome_iff_exists.1 ((k4 d e).2 (by rw [hl]; rfl))
    have h9 := k6 _ _ _ _ hl hl'
    rw [List.filter_eq_nil_iff.2 (fun i hi => by
      rw [decide_eq_true_iff, hidx, m4]
      rintro ⟨e', l2, h2, h3⟩
      obtain ⟨z, -, hu⟩ := hpart.2 i ((hpart.1 _ _ _ hl).2 i hi)
      have := (hu (d, e) ⟨_, hl, hi⟩).trans (hu (D - c, e') ⟨_, h2, h3⟩).symm
      exact hd (Prod.mk.inj this).1)] at h9
    rw [hl', List.map_eq_nil_iff.1 h9]
  · have hV : RestrictedSpace (fun _ : Unit => ([] : List ℕ)) (el.member φ) (pts.map pointEvaluation) ((sortedDofs m).map fun (i : ℕ) => (i : ℤ)) =
        BubbleSpace s k c := by
      funext w
      rw [eq_iff_iff]
      unfold RestrictedSpace BubbleSpace
      rw [h8]
      refine and_congr_right fun _ => ?_
      constructor
      · intro h d e t ps hd ht hps x hx
        obtain ⟨l, hl⟩ := Option.isSome_iff_exists.1 ((hsame d e).2 ⟨t, ht⟩)
        have h11 := hassoc _ _ _ hl
        rw [hps, Option.getD_some] at h11
        have : some x ∈ l.map fun (i : ℕ) => pts[i]? := by rw [h11]; exact List.mem_map_of_mem hx
        obtain ⟨i, hi, hix⟩ := List.mem_map.1 this
        have h12 := h i (pointEvaluation x) (by rw [List.getElem?_map, hix]; rfl) (by
          rw [hidx, m4]
          rintro ⟨e', l2, h2, h3⟩
          obtain ⟨z, -, hu⟩ := hpart.2 i ((hpart.1 _ _ _ hl).2 i hi)
          have := (hu (d, e) ⟨_, hl, hi⟩).trans (hu (D - c, e') ⟨_, h2, h3⟩).symm
          exact hd (Prod.mk.inj this).1)
        rwa [unit_field, point_eval_scalar] at h12
      · intro h i l hl hi
        obtain ⟨x, hx, rfl⟩ := hget i l hl
        rw [unit_field, point_eval_scalar]
        rw [hidx, m4] at hi
        obtain ⟨⟨d, e⟩, ⟨l2, h9, h10⟩, -⟩ := hpart.2 i (List.getElem?_eq_some_iff.1 hx).1
        simp only at h9
        obtain ⟨t, ht⟩ := (hsame d e).1 (by rw [h9]; rfl)
        obtain ⟨ps, p1, -⟩ := make_points_mem (K := ℝ) s hs.2.1 k hk1 ht
        have h11 := hassoc _ _ _ h9
        rw [p1, Option.getD_some] at h11
        have : some x ∈ ps.map some := by rw [← h11, ← hx]; exact List.mem_map.2 ⟨i, h10, rfl⟩
        obtain ⟨y, hy, e1⟩ := List.mem_map.1 this
        rw [← Option.some.inj e1]
        refine h d e t ps ?_ ht p1 y hy
        rintro rfl
        exact hi ⟨e, l2, h9, h10⟩
    rw [← hV]; exact r5

/-- C57: for a degree that gives no dofs, and for a codimension larger than the dimension, the constructor raises. -/
theorem codim_bubble_rejects (hD : D = 1 ∨ D = 2 ∨ D = 3) (s : SimplexCell (Fin D → ℝ)) (hs : ProperSimplex ℝ s) (hnum : NumberedSimplex s)
    (hv : Increasing fun i : Fin (D + 1) => s.v i) (k c : ℕ) (hk : 1 ≤ k) (h : k ≤ D - c ∨ D < c) : codimBubble s k c = none := by
  obtain ⟨el, ids, pts, h1, h2, -⟩ := lagrange_core hD s hs hv k hk
  unfold codimBubble
  simp only [h1, h2, Option.bind_eq_bind, Option.bind_some]
  by_cases hc : c ≤ D
  · obtain ⟨m, m1, -, -, -, m5⟩ := dim_dofs hs hnum hk h2 (d := D - c) (by omega)
    rw [if_pos hc, m1, Option.bind_some, if_pos]
    rw [m5, Nat.choose_eq_zero_of_lt (by omega : k - 1 < D - c), Nat.mul_zero]
  · rw [if_neg hc]; rfl

/-- A polynomial of degree at most `k` that is zero at the lattice points of an entity and its sub-entities is zero on the entity. -/
theorem closure_lattice (s : SimplexCell (Fin D → ℝ)) (hs : ProperSimplex ℝ s) (hD : 1 ≤ D) {k : ℕ} (hk : 1 ≤ k)
    {p : MvPolynomial (Fin D) ℝ} (hp : p.totalDegree ≤ k) {d e : ℕ} {t : List ℕ} (h : HasEntity s.topo d e t)
    (hz : ∀ d' e' t' pts, HasEntity s.topo d' e' t' → (∀ a ∈ t', a ∈ t) → makePoints ℝ s d' e' k = some pts → ∀ x ∈ pts, eval x p = 0)
    (x : Fin D → ℝ) (hx : OnEntity s t x) : eval x p = 0 := by
  obtain ⟨nodes, ids, h2, -⟩ := lagrange_num_nodes (K := ℝ) s hs.2.1 hs.2.2.1 k hk (by rw [hs.1]; omega)
  obtain ⟨h3, h4, h5⟩ := hs.2.1.entity _ _ _ h
  obtain ⟨c, c1, rfl⟩ := hx
  have e1 := sum_range_eq_list t h3 (s.sd + 1) h5 (fun a => if a ∈ t then c a else 0) (fun i hi => if_neg hi)
  have e2 := sum_range_eq_list t h3 (s.sd + 1) h5 (fun a => (if a ∈ t then c a else 0) • s.v a) (fun i hi => by rw [if_neg hi, zero_smul])
  rw [List.map_congr_left (g := fun a => c a • s.v a) (fun a ha => by rw [if_pos ha])] at e2
  rw [List.map_congr_left (g := c) (fun a ha => by rw [if_pos ha]), c1] at e1
  rw [← e2]
  refine lagrange_c0 s hs.2.1 k hk nodes ids h2 h p hp ?_ _ (fun j hj => if_neg hj) e1
  rintro i x ⟨d', e', t', l', q1, q2, q3, q4⟩ hx
  obtain ⟨ps, p1, -⟩ := make_points_mem (K := ℝ) s hs.2.1 k hk q1
  have h11 := lagrange_dof_points s hs.2.1 k hk nodes ids h2 _ _ _ q3
  rw [p1, Option.getD_some] at h11
  have : some x ∈ ps.map some := by rw [← h11, ← hx]; exact List.mem_map.2 ⟨i, q4, rfl⟩
  obtain ⟨y, hy, e1⟩ := List.mem_map.1 this
  rw [← Option.some.inj e1]
  exact hz d' e' t' ps q1 q2 p1 y hy

private theorem sub_dim {s : SimplexCell (Fin D → ℝ)} (hs : ProperSimplex ℝ s) {d e d' e' : ℕ} {t t' : List ℕ} (h : HasEntity s.topo d e t)
    (h' : HasEntity s.topo d' e' t') (hsub : ∀ a ∈ t', a ∈ t) : d' < d ∨ d' = d ∧ e' = e := by
  obtain ⟨h1, h2, -⟩ := hs.2.1.entity _ _ _ h
  obtain ⟨h3, h4, -⟩ := hs.2.1.entity _ _ _ h'
  have hle : t'.toFinset ⊆ t.toFinset := fun a ha => List.mem_toFinset.2 (hsub a (List.mem_toFinset.1 ha))
  have hc := Finset.card_le_card hle
  rw [List.toFinset_card_of_nodup h1, List.toFinset_card_of_nodup h3, h2, h4] at hc
  by_cases hd : d' = d
  · right
    have he := Finset.eq_of_subset_of_card_le hle (by
      rw [List.toFinset_card_of_nodup h1, List.toFinset_card_of_nodup h3, h2, h4, hd])
    exact hs.2.1.unique _ _ _ _ _ _ h' h he
  · left; omega

/-- C57: a function of `BubbleSpace` vanishes on all entities of dimension less than `D - c`. -/
theorem bubble_space_boundary (s : SimplexCell (Fin D → ℝ)) (hs : ProperSimplex ℝ s) (hD : 1 ≤ D) {k c : ℕ} (hk : 1 ≤ k)
    {w : Unit → MvPolynomial (Fin D) ℝ} (hw : BubbleSpace s k c w) {d e : ℕ} {t : List ℕ} (h : HasEntity s.topo d e t) (hd : d < D - c)
    (x : Fin D → ℝ) (hx : OnEntity s t x) : eval x (w ()) = 0 := by
  refine closure_lattice s hs hD hk hw.1 h (fun d' e' t' pts h' hsub hp y hy => ?_) x hx
  refine hw.2 d' e' t' pts ?_ h' hp y hy
  rcases sub_dim hs h h' hsub with h1 | h1 <;> omega

/-- C57: on an entity of dimension `D - c` it is determined by the dofs of that entity; so a basis function vanishes on all entities of
dimension `D - c` other than the one of its dof. -/
theorem bubble_space_conforming (s : SimplexCell (Fin D → ℝ)) (hs : ProperSimplex ℝ s) (hD : 1 ≤ D) {k c : ℕ} (hk : 1 ≤ k)
    {w : Unit → MvPolynomial (Fin D) ℝ} (hw : BubbleSpace s k c w) {e : ℕ} {t : List ℕ} (h : HasEntity s.topo (D - c) e t)
    {pts : List (Fin D → ℝ)} (hp : makePoints ℝ s (D - c) e k = some pts) (hz : ∀ x ∈ pts, eval x (w ()) = 0)
    (x : Fin D → ℝ) (hx : OnEntity s t x) : eval x (w ()) = 0 := by
  refine closure_lattice s hs hD hk hw.1 h (fun d' e' t' pts' h' hsub hp' y hy => ?_) x hx
  rcases sub_dim hs h h' hsub with h1 | ⟨rfl, rfl⟩
  · exact hw.2 d' e' t' pts' (by omega) h' hp' y hy
  · rw [hp] at hp'
    exact hz y (Option.some.inj hp' ▸ hy)

/-- C57: the space of `Bubble(cell, k)` consists of all polynomials of degree at most `k` that vanish on the boundary of the cell. -/
theorem bubble_space_iff (s : SimplexCell (Fin D → ℝ)) (hs : ProperSimplex ℝ s) (hnum : NumberedSimplex s) (hD : 1 ≤ D) {k : ℕ} (hk : 1 ≤ k)
    (w : Unit → MvPolynomial (Fin D) ℝ) : BubbleSpace s k 0 w ↔ (w ()).totalDegree ≤ k ∧
      ∀ e t, HasEntity s.topo (D - 1) e t → ∀ x, OnEntity s t x → eval x (w ()) = 0 := by
  constructor
  · exact fun hw => ⟨hw.1, fun e t h x hx => bubble_space_boundary s hs hD hk hw h (by omega) x hx⟩
  · rintro ⟨h1, h2⟩
    refine ⟨h1, fun d e t pts hd h hp x hx => ?_⟩
    rw [Nat.sub_zero] at hd
    have hdD := hnum.2 d e t h
    obtain ⟨pts', p1, p2⟩ := make_points_mem (K := ℝ) s hs.2.1 k hk h
    rw [hp] at p1
    obtain rfl := Option.some.inj p1
    obtain ⟨β, b1, b2, rfl⟩ := (p2 x).1 hx
    obtain ⟨h3, h4, h5⟩ := hs.2.1.entity _ _ _ h
    -- a facet containing the entity
    obtain ⟨i, hi, hit⟩ : ∃ i, i < D + 1 ∧ i ∉ t := by
      by_contra hc
      push Not at hc
      have : Finset.range (D + 1) ⊆ t.toFinset := fun a ha => List.mem_toFinset.2 (hc a (Finset.mem_range.1 ha))
      have := Finset.card_le_card this
      rw [List.toFinset_card_of_nodup h3, h4, Finset.card_range] at this
      omega
    obtain ⟨e', t', f1, f2⟩ := facet_of_vertex hD hs ⟨i, hi⟩
    obtain ⟨g1, g2, g3⟩ := hs.2.1.entity _ _ _ f1
    have hsub : ∀ a, a ∉ t' → β a = 0 := by
      intro a ha
      by_contra hb
      have := (b1 a).1 hb
      refine ha ((f2 a).2 ⟨?_, ?_⟩)
      · have := h5 a this; rwa [hs.1] at this
      · rintro rfl; exact hit this
    refine h2 e' t' f1 _ ⟨fun a => (β a : ℝ) / k, ?_, ?_⟩
    · rw [← sum_range_eq_list t' g1 (s.sd + 1) g3 _ (fun a ha => by rw [hsub a ha]; simp), ← Finset.sum_div]
      rw [show (∑ a ∈ Finset.range (s.sd + 1), (β a : ℝ)) = k by exact_mod_cast b2]
      exact div_self (by positivity)
    · rw [← sum_range_eq_list t' g1 (s.sd + 1) g3 (fun a => ((β a : ℝ) / k) • s.v a) (fun a ha => by rw [hsub a ha]; simp)]
      rfl

/-- The hypotheses are met: the cubic bubble on the triangle has one function, the facet bubbles of the quadratic tetrahedron do not exist. -/
example : ∃ el nodes ids, codimBubble ((ufcTriangle : CellData ℝ).toSimplex 2) 3 0 = some ⟨1, el, nodes, ids⟩ := by
  obtain ⟨r, el, nodes, ids, h1, h2, -⟩ := codim_bubble_spec (by norm_num) _ (proper_ufcTriangle (K := ℝ)) numbered_ufcTriangle
    (fun h => absurd h (by norm_num)) 3 0 (by norm_num) (by norm_num)
  have : r = 1 := by rw [h2]; decide
  subst this
  exact ⟨el, nodes, ids, h1⟩

example : facetBubble ((ufcTetrahedron : CellData ℝ).toSimplex 3) 2 = none :=
  codim_bubble_rejects (by norm_num) _ (proper_ufcTetrahedron (K := ℝ)) numbered_ufcTetrahedron (fun h => absurd h (by norm_num)) 2 1 (by norm_num)
    (by norm_num)

end
end FIAT
