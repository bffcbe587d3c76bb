/-
Lagrange elements, their restrictions and bubbles as parts of `NodalEnrichedElement`.
-/
import Verif.Props.NodalEnriched
import Verif.Props.Bubble

namespace FIAT
open MvPolynomial
section
variable {D : ℕ} {Cp : Type} [Fintype Cp]

theorem restrict_wf {indices : List ℤ} {ids : EntityIds ℕ} {kept : List ℕ} {ids' : EntityIds ℕ} (h : restrict indices ids = some (kept, ids')) :
    Topology.WF ids' := by
  have hin : ∀ (L : List (ℕ × List ℕ)) (d : ℕ) (st st' : ℕ × List ℕ × EntityIds ℕ), Topology.WF st.2.2 →
      L.foldlM (fun (st : ℕ × List ℕ × EntityIds ℕ) (q : ℕ × List ℕ) => do
        let inner ← st.2.2.get? d
        let r := restrictDofs indices q.2 (st.1, st.2.1, [])
        some (r.1, r.2.1, Dict.put st.2.2 d (Dict.put inner q.1 r.2.2))) st = some st' → Topology.WF st'.2.2 := by
    intro L d
    induction L with
    | nil =>
      intro st st' hst h
      rw [List.foldlM_nil] at h
      rw [← Option.some.inj h]; exact hst
    | cons q L ih =>
      intro st st' hst h
      rw [List.foldlM_cons] at h
      simp only [Option.bind_eq_bind, Option.bind_eq_some_iff] at h
      obtain ⟨x, ⟨inner, h1, h2⟩, h3⟩ := h
      refine ih x st' ?_ h3
      rw [← Option.some.inj h2]
      exact topology_wf_put hst d ((hst.2 _ (Dict.mem_of_get? h1)).put q.1 _)
  have hout : ∀ (L : EntityIds ℕ) (st st' : ℕ × List ℕ × EntityIds ℕ), Topology.WF st.2.2 →
      L.foldlM (fun (st : ℕ × List ℕ × EntityIds ℕ) (p : ℕ × Dict ℕ (List ℕ)) =>
        p.2.foldlM (fun (st : ℕ × List ℕ × EntityIds ℕ) (q : ℕ × List ℕ) => do
          let inner ← st.2.2.get? p.1
          let r := restrictDofs indices q.2 (st.1, st.2.1, [])
          some (r.1, r.2.1, Dict.put st.2.2 p.1 (Dict.put inner q.1 r.2.2)))
        (st.1, st.2.1, Dict.put st.2.2 p.1 [])) st = some st' → Topology.WF st'.2.2 := by
    intro L
    induction L with
    | nil =>
      intro st st' hst h
      rw [List.foldlM_nil] at h
      rw [← Option.some.inj h]; exact hst
    | cons q L ih =>
      intro st st' hst h
      rw [List.foldlM_cons] at h
      simp only [Option.bind_eq_bind] at h
      obtain ⟨x, h1, h2⟩ := Option.bind_eq_some_iff.1 h
      exact ih x st' (hin q.2 q.1 (st.1, st.2.1, Dict.put st.2.2 q.1 []) x
        (topology_wf_put hst q.1 (m := []) (by simp [Dict.WF, Dict.keys])) h1) h2
  unfold restrict at h
  split_ifs at h
  simp only [Option.bind_eq_bind] at h
  obtain ⟨st, h1, h2⟩ := Option.bind_eq_some_iff.1 h
  split_ifs at h2
  have := (Prod.mk.inj (Option.some.inj h2)).2
  rw [← this]
  exact hout ids (0, [], []) st ⟨by simp [Dict.WF, Dict.keys], by simp⟩ h1

theorem restricted_keeps {N m : ℕ} {comp : Cp → List ℕ} {S : PolySet ℝ (Fin D → ℝ) N m Cp} {nodes : List (Functional ℝ (Fin D → ℝ))}
    {ids : EntityIds ℕ} {indices : List ℤ} {r : ℕ} {el : PolySet ℝ (Fin D → ℝ) N r Cp} {nn : List (Functional ℝ (Fin D → ℝ))} {ids' : EntityIds ℕ}
    (h : restrictedElement comp S nodes ids indices = some ⟨r, el, nn, ids'⟩) :
    el.sd = S.sd ∧ el.base = S.base ∧ el.dmats = S.dmats ∧ Topology.WF ids' := by
  unfold restrictedElement at h
  simp only [Option.bind_eq_bind, Option.bind_eq_some_iff] at h
  obtain ⟨items, -, dual, h2, newNodes, -, el', h4, h5⟩ := h
  have h6 := Option.some.inj h5
  obtain ⟨rfl, h7⟩ := Sigma.mk.inj h6
  have h8 := eq_of_heq h7
  obtain ⟨rfl, h9⟩ := Prod.mk.inj h8
  obtain ⟨rfl, rfl⟩ := Prod.mk.inj h9
  obtain ⟨k1, k2, k3⟩ := ciarlet_keeps h4
  exact ⟨k1, k2, k3, restrict_wf (kept := dual.1) h2⟩

theorem restricted_nodes {N m : ℕ} {comp : Cp → List ℕ} {S : PolySet ℝ (Fin D → ℝ) N m Cp} {nodes : List (Functional ℝ (Fin D → ℝ))}
    {ids : EntityIds ℕ} {indices : List ℤ} {r : ℕ} {el : PolySet ℝ (Fin D → ℝ) N r Cp} {nn : List (Functional ℝ (Fin D → ℝ))} {ids' : EntityIds ℕ}
    (h : restrictedElement comp S nodes ids indices = some ⟨r, el, nn, ids'⟩) : ∀ l ∈ nn, l ∈ nodes := by
  unfold restrictedElement at h
  simp only [Option.bind_eq_bind, Option.bind_eq_some_iff] at h
  obtain ⟨items, -, dual, h2, newNodes, h3, el', h4, h5⟩ := h
  have h6 := Option.some.inj h5
  obtain ⟨rfl, h7⟩ := Sigma.mk.inj h6
  have h8 := eq_of_heq h7
  obtain ⟨rfl, h9⟩ := Prod.mk.inj h8
  obtain ⟨rfl, rfl⟩ := Prod.mk.inj h9
  have key : ∀ (L : List ℕ) (nn : List (Functional ℝ (Fin D → ℝ))), L.mapM (fun (i : ℕ) => nodes[i]?) = some nn → ∀ l ∈ nn, l ∈ nodes := by
    intro L
    induction L with
    | nil =>
      intro nn h l hl
      rw [List.mapM_nil] at h
      rw [← Option.some.inj h] at hl
      simp at hl
    | cons a L ih =>
      intro nn h l hl
      rw [List.mapM_cons] at h
      simp only [Option.bind_eq_bind, Option.bind_eq_some_iff] at h
      obtain ⟨x, h1, y, h2, h3⟩ := h
      rw [← Option.some.inj h3] at hl
      rcases List.mem_cons.1 hl with rfl | hl
      · exact List.mem_of_getElem? h1
      · exact ih y h2 l hl
  exact key _ _ h3

/-- The polynomials behind a part. -/
theorem part_basis (hD : D = 1 ∨ D = 2 ∨ D = 3) {s : SimplexCell (Fin D → ℝ)} (hs : ProperSimplex ℝ s)
    (hv : Increasing fun i : Fin (D + 1) => s.v i) {comp : Cp → List ℕ} {V : Submodule ℝ (Cp → MvPolynomial (Fin D) ℝ)} {p : NodalPart D Cp}
    (h : IsNodalPart s comp V p) :
    ∃ φ : Fin ((p.degree + D).choose D) → MvPolynomial (Fin D) ℝ, BaseSpec φ p.el.base ∧ DmatSpec φ p.el.dmats ∧
      (∀ (i : ℕ) l, p.nodes[i]? = some l → ∀ j : Fin p.dim, l.onField (fieldC comp (p.el.member φ j)) = if i = (j : ℕ) then 1 else 0) ∧
      Submodule.span ℝ (Set.range (p.el.member φ)) = V := by
  obtain ⟨mats, h1, φ, -, -, h3, h4⟩ := on_core hD s hs hv p.degree
  have hb' : BaseSpec φ p.el.base := by rw [h.base]; exact h3
  have hd' : DmatSpec φ p.el.dmats := by
    obtain ⟨Q, q1, q2⟩ := h.dmats
    rw [h1] at q1
    rw [q2, ← Option.some.inj q1]
    exact h4
  obtain ⟨ψ, p1, p2, p3, p4⟩ := h.nodal
  have e : ψ = p.el.member φ := by
    funext j u
    refine MvPolynomial.funext fun x => ?_
    obtain ⟨res, r1, -, r2, r3⟩ := tabulate_spec (by omega) _ p.el h.sd hb' hd' [x] 0
    obtain ⟨res', q1, q2, q3⟩ := p4 [x] 0
    rw [r1] at q1
    obtain rfl := Option.some.inj q1
    have hin : List.replicate D 0 ∈ Dict.keys res := (r2 _).2 ⟨by simp, by simp⟩
    obtain ⟨T, hT⟩ := Option.isSome_iff_exists.1 (Dict.get?_isSome_iff.2 hin)
    have e1 := r3 _ T hT j u 0 x rfl
    have e2 := q3 _ T hT j u 0 x rfl
    have e3 : ∀ p : MvPolynomial (Fin D) ℝ, iterDeriv (List.replicate D 0) p = p := by
      intro p
      unfold iterDeriv
      simp
    rw [e3] at e1 e2
    rw [← e1, ← e2]
  refine ⟨φ, hb', hd', ?_, ?_⟩
  · rw [← e]; exact p3
  · rw [← e]
    refine le_antisymm (Submodule.span_le.2 ?_) p2
    rintro _ ⟨j, rfl⟩
    exact p1 j

/-- The functions of `V` on which the nodes that are not listed in `indices` are zero. -/
noncomputable def keptSpace (comp : Cp → List ℕ) (V : Submodule ℝ (Cp → MvPolynomial (Fin D) ℝ)) (nodes : List (Functional ℝ (Fin D → ℝ)))
    (indices : List ℤ) : Submodule ℝ (Cp → MvPolynomial (Fin D) ℝ) where
  carrier := {w | w ∈ V ∧ ∀ (i : ℕ) l, nodes[i]? = some l → (i : ℤ) ∉ indices → l.onField (fieldC comp w) = 0}
  add_mem' := by
    rintro a b ⟨ha, ha'⟩ ⟨hb, hb'⟩
    refine ⟨V.add_mem ha hb, fun i l hl hi => ?_⟩
    have := onFieldC_comb comp l (![1, 1] : Fin 2 → ℝ) ![a, b]
    simp only [Fin.sum_univ_two, Matrix.cons_val_zero, Matrix.cons_val_one, one_smul, one_mul] at this
    rw [this, ha' i l hl hi, hb' i l hl hi, add_zero]
  zero_mem' := by
    refine ⟨V.zero_mem, fun i l _ _ => ?_⟩
    have := onFieldC_comb comp l (0 : Fin 0 → ℝ) (fun _ => 0)
    simpa using this
  smul_mem' := by
    rintro c a ⟨ha, ha'⟩
    refine ⟨V.smul_mem c ha, fun i l hl hi => ?_⟩
    have := onFieldC_comb comp l (![c] : Fin 1 → ℝ) ![a]
    simp only [Fin.sum_univ_one, Matrix.cons_val_zero] at this
    rw [this, ha' i l hl hi, mul_zero]

/-- `RestrictedElement` of a part. -/
theorem restrict_part [DecidableEq Cp] (hD : D = 1 ∨ D = 2 ∨ D = 3) {s : SimplexCell (Fin D → ℝ)} (hs : ProperSimplex ℝ s)
    (hv : Increasing fun i : Fin (D + 1) => s.v i) {comp : Cp → List ℕ} (hcomp : Function.Injective comp)
    {V : Submodule ℝ (Cp → MvPolynomial (Fin D) ℝ)} {p : NodalPart D Cp} (h : IsNodalPart s comp V p) {indices : List ℤ} (hne : indices ≠ [])
    (hnd : indices.Nodup) (hr : ∀ i ∈ indices, 0 ≤ i ∧ i < (p.dim : ℤ)) (hord : ∀ l ∈ p.nodes, l.deriv = []) :
    ∃ r, restrictPart comp p indices = some r ∧ r.degree = p.degree ∧ r.dim = indices.length ∧ (∀ l ∈ r.nodes, l.deriv = []) ∧
      (∀ l, l ∈ r.nodes ↔ ∃ i : ℕ, (i : ℤ) ∈ indices ∧ p.nodes[i]? = some l) ∧
      IsNodalPart s comp (keptSpace comp V p.nodes indices) r := by
  obtain ⟨φ, f1, f2, f3, f4⟩ := part_basis hD hs hv h
  have hno : ¬ ∃ l ∈ p.nodes, 0 < l.maxDerivOrder := by
    rintro ⟨l, hl, h'⟩
    simp [Functional.maxDerivOrder, hord l hl] at h'
  obtain ⟨el, kept, nn, ids', r1, r2, ⟨r3, r4⟩, r5⟩ := restricted_element_nodal (by omega : 1 ≤ D) φ comp hcomp p.el h.sd f1 f2 p.nodes h.len
    h.wf f3 h.ids.1 h.ids.2.2 hne hnd hr (fun h' => absurd h' hno) (Or.inr hord)
  obtain ⟨k1, k2, k3, k4, k5, k6⟩ := restrict_spec h.ids.1 h.ids.2.2 _ r1
  obtain ⟨g1, g2, g3, g4⟩ := restricted_keeps r2
  have hmem : ∀ l, l ∈ nn ↔ ∃ i : ℕ, (i : ℤ) ∈ indices ∧ p.nodes[i]? = some l := by
    intro l
    rw [List.mem_iff_getElem?]
    constructor
    · rintro ⟨j, hj⟩
      rw [r4] at hj
      obtain ⟨i, hi, hi'⟩ := Option.bind_eq_some_iff.1 hj
      exact ⟨i, (k2 i).1 (List.mem_of_getElem? hi), hi'⟩
    · rintro ⟨i, hi, hi'⟩
      obtain ⟨j, hj⟩ := List.mem_iff_getElem?.1 ((k2 i).2 hi)
      exact ⟨j, by rw [r4, hj]; exact hi'⟩
  have hp : ∀ l ∈ nn, l ∈ p.nodes := fun l hl => by
    obtain ⟨i, -, hi⟩ := (hmem l).1 hl
    exact List.mem_of_getElem? hi
  refine ⟨⟨p.degree, indices.length, el, nn, ids'⟩, ?_, rfl, rfl, fun l hl => hord l (hp l hl), hmem, ?_⟩
  · unfold restrictPart
    rw [r2]; rfl
  · refine ⟨g1.trans h.sd, g2.trans h.base, ?_, ?_, r3, fun l hl => h.wf l (hp l hl), Or.inr fun l hl => hord l (hp l hl), ?_, g4, ?_, ?_⟩
    · obtain ⟨Q, q1, q2⟩ := h.dmats
      exact ⟨Q, q1, g3.trans q2⟩
    · exact List.length_pos_iff.2 hne
    · have e : (fun w => w ∈ keptSpace comp V p.nodes indices) = RestrictedSpace comp (p.el.member φ) p.nodes indices := by
        funext w
        rw [eq_iff_iff]
        unfold RestrictedSpace
        rw [f4]
        rfl
      rw [e]
      exact r5
    · intro d e
      rw [k4]; exact h.ids.2.1 d e
    · rw [k3] at k5; exact k5

/-- The scalar polynomials of degree at most `k`. -/
noncomputable def polySpace (D k : ℕ) : Submodule ℝ (Unit → MvPolynomial (Fin D) ℝ) :=
  (restrictTotalDegree (Fin D) ℝ k).comap (LinearMap.proj ())

theorem mem_polySpace {k : ℕ} {w : Unit → MvPolynomial (Fin D) ℝ} : w ∈ polySpace D k ↔ (w ()).totalDegree ≤ k := by
  unfold polySpace
  rw [Submodule.mem_comap, mem_restrictTotalDegree]
  rfl

theorem unit_scalar (w : Unit → MvPolynomial (Fin D) ℝ) : fieldC (fun _ : Unit => ([] : List ℕ)) w = scalarField (w ()) := by
  funext c
  simp [scalarField, fieldC]

/-- `Lagrange(cell, k)` as a part. -/
theorem lagrange_part (hD : D = 1 ∨ D = 2 ∨ D = 3) (s : SimplexCell (Fin D → ℝ)) (hs : ProperSimplex ℝ s)
    (hv : Increasing fun i : Fin (D + 1) => s.v i) (k : ℕ) (hk : 1 ≤ k) :
    ∃ el ids nodes, lagrangeElement s k = some (el, ids) ∧ lagrangeDual ℝ s k = some (nodes, ids) ∧
      lagrangePart s k = some ⟨k, (k + D).choose D, el, nodes.map pointEvaluation, ids⟩ ∧
      IsNodalPart s (fun _ : Unit => []) (polySpace D k) ⟨k, (k + D).choose D, el, nodes.map pointEvaluation, ids⟩ := by
  obtain ⟨el, ids, nodes, h1, h2, h3, h4, φ, h5, h6, h7, h8⟩ := lagrange_core hD s hs hv k hk
  obtain ⟨hsame, hpart, -⟩ := lagrange_dofs_partition s hs.2.1 k hk nodes ids h2
  have hkeep : el.base = expTab s.verts k ∧ ∃ P, onPolynomialSet s k = some P ∧ el.dmats = P.dmats := by
    obtain ⟨mats, m1, -⟩ := on_core hD s hs hv k
    unfold lagrangeElement at h1
    simp only [h2, m1, Option.bind_eq_bind, Option.bind_some, Option.bind_eq_some_iff] at h1
    obtain ⟨el', e1, e2⟩ := h1
    obtain ⟨k1, k2, k3⟩ := ciarlet_keeps e1
    have := (Prod.mk.inj (Option.some.inj e2)).1
    subst this
    exact ⟨k2, _, m1, k3⟩
  refine ⟨el, ids, nodes, h1, h2, ?_, h4, hkeep.1, hkeep.2, Nat.choose_pos (Nat.le_add_left _ _), by simp [h3], ?_, Or.inr ?_, ?_,
    lagrange_ids_wf h2, hsame, (h3 ▸ hpart : DofsPartition ids ((k + D).choose D))⟩
  · unfold lagrangePart
    simp only [h1, h2, Option.bind_eq_bind, Option.bind_some]
  · intro l hl
    obtain ⟨x, -, rfl⟩ := List.mem_map.1 hl
    exact wf_eval x
  · intro l hl
    obtain ⟨x, -, rfl⟩ := List.mem_map.1 hl
    rfl
  · refine ⟨el.member φ, fun i => ?_, fun w hw => ?_, fun i l hl j => ?_, fun pts order => ?_⟩
    · show el.member φ i ∈ polySpace D k
      rw [mem_polySpace, ← h8]
      exact Submodule.subset_span ⟨i, rfl⟩
    · rw [h8]; exact mem_polySpace.1 hw
    · rw [List.getElem?_map] at hl
      obtain ⟨x, hx, rfl⟩ := Option.map_eq_some_iff.1 hl
      rw [unit_scalar, point_eval_scalar]
      exact h7 i x hx j
    · obtain ⟨res, r1, -, r2, r3⟩ := tabulate_spec (by omega) φ el h4 h5 h6 pts order
      exact ⟨res, r1, r2, r3⟩

/-- `BubbleSpace` as a subspace. -/
noncomputable def bubbleSub (s : SimplexCell (Fin D → ℝ)) (k c : ℕ) : Submodule ℝ (Unit → MvPolynomial (Fin D) ℝ) where
  carrier := {w | BubbleSpace s k c w}
  add_mem' := by
    rintro a b ⟨ha, ha'⟩ ⟨hb, hb'⟩
    refine ⟨(totalDegree_add _ _).trans (max_le ha hb), fun d e t pts h1 h2 h3 x hx => ?_⟩
    rw [Pi.add_apply, map_add, ha' d e t pts h1 h2 h3 x hx, hb' d e t pts h1 h2 h3 x hx, add_zero]
  zero_mem' := ⟨by simp, fun d e t pts h1 h2 h3 x hx => by simp⟩
  smul_mem' := by
    rintro r a ⟨ha, ha'⟩
    refine ⟨(totalDegree_smul_le _ _).trans ha, fun d e t pts h1 h2 h3 x hx => ?_⟩
    rw [Pi.smul_apply, smul_eval, ha' d e t pts h1 h2 h3 x hx, mul_zero]

theorem mem_bubbleSub {s : SimplexCell (Fin D → ℝ)} {k c : ℕ} {w : Unit → MvPolynomial (Fin D) ℝ} : w ∈ bubbleSub s k c ↔ BubbleSpace s k c w :=
  Iff.rfl

/-- `CodimBubble(cell, k, c)` as a part. -/
theorem bubble_part (hD : D = 1 ∨ D = 2 ∨ D = 3) (s : SimplexCell (Fin D → ℝ)) (hs : ProperSimplex ℝ s) (hnum : NumberedSimplex s)
    (hv : Increasing fun i : Fin (D + 1) => s.v i) (k c : ℕ) (hc : c ≤ D) (hk : D - c < k) :
    ∃ p, bubblePart s k c = some p ∧ p.degree = k ∧ p.dim = (D + 1).choose (D - c + 1) * (k - 1).choose (D - c) ∧
      (∀ l ∈ p.nodes, ∃ x, l = pointEvaluation x) ∧
      (∀ q, (∀ l ∈ p.nodes, l.onField (scalarField q) = 0) → ∀ e t pts, HasEntity s.topo (D - c) e t → makePoints ℝ s (D - c) e k = some pts →
        ∀ x ∈ pts, eval x q = 0) ∧
      IsNodalPart s (fun _ : Unit => []) (bubbleSub s k c) p := by
  obtain ⟨r, el, nodes, ids, h1, h2, h3, h4, h5, -, h7⟩ := codim_bubble_spec hD s hs hnum hv k c hc hk
  obtain ⟨lel, lids, lnodes, l1, l2, -, l4⟩ := lagrange_part hD s hs hv k (by omega)
  have h8 := h1
  unfold codimBubble at h8
  simp only [l1, l2, Option.bind_eq_bind, Option.bind_some, if_pos hc, Option.bind_eq_some_iff] at h8
  obtain ⟨ent, -, h9⟩ := h8
  split_ifs at h9 with h10
  obtain ⟨g1, g2, g3, g4⟩ := restricted_keeps h9
  have hsub := restricted_nodes h9
  have hpt : ∀ l ∈ nodes, ∃ x, l = pointEvaluation x := by
    intro l hl
    obtain ⟨x, -, rfl⟩ := List.mem_map.1 (hsub l hl)
    exact ⟨x, rfl⟩
  refine ⟨⟨k, r, el, nodes, ids⟩, ?_, rfl, h2, hpt, ?_, ?_⟩
  · unfold bubblePart
    rw [h1]; rfl
  · intro q hq e t pts ht hp x hx
    obtain ⟨pts', p1, l, p2, p3⟩ := h5 e t ht
    rw [hp] at p1
    obtain rfl := Option.some.inj p1
    have h11 := p3 q
    have h12 : some (eval x q) ∈ l.map (fun i => (nodes[i]?).map fun node => node.onField (scalarField q)) := by
      rw [h11]
      exact List.mem_map_of_mem (List.mem_map_of_mem hx)
    obtain ⟨i, -, hi⟩ := List.mem_map.1 h12
    obtain ⟨node, n1, n2⟩ := Option.map_eq_some_iff.1 hi
    rw [← n2]
    exact hq node (List.mem_of_getElem? n1)
  · refine ⟨g1.trans l4.sd, g2.trans l4.base, ?_, ?_, h3, fun l hl => ?_, Or.inr fun l hl => ?_, h7, g4, h4.2, ?_⟩
    · obtain ⟨Q, q1, q2⟩ := l4.dmats
      exact ⟨Q, q1, g3.trans q2⟩
    · show 1 ≤ r
      rw [h2]
      exact Nat.mul_pos (Nat.choose_pos (by omega)) (Nat.choose_pos (by omega))
    · obtain ⟨x, rfl⟩ := hpt l hl
      exact wf_eval x
    · obtain ⟨x, rfl⟩ := hpt l hl
      rfl
    · have := h4.1
      rw [h3] at this
      exact this

end
end FIAT
