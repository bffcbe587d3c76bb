/-
The Lagrange element with its expansion functions exposed; well-formedness of its `entity_ids`.
-/
import Verif.Lemmas.AnyElement
import Verif.Lemmas.Jets

namespace FIAT
open MvPolynomial

private theorem foldlM_keep {α β : Type} (f : β → α → Option β) (P : β → Prop) (hf : ∀ b a b', P b → f b a = some b' → P b') (l : List α) :
    ∀ b b', P b → l.foldlM f b = some b' → P b' := by
  induction l with
  | nil => intro b b' h e; rw [← Option.some.inj e]; exact h
  | cons a l ih =>
    intro b b' h e
    rw [List.foldlM_cons, Option.bind_eq_bind, Option.bind_eq_some_iff] at e
    obtain ⟨c, h1, h2⟩ := e
    exact ih c b' (hf b a c h h1) h2

theorem topology_wf_put {δ α : Type} [LinearOrder δ] {t : Dict δ (Dict ℕ α)} (ht : Dict.WF t ∧ ∀ p ∈ t, Dict.WF p.2) (d : δ)
    {m : Dict ℕ α} (hm : Dict.WF m) : Dict.WF (Dict.put t d m) ∧ ∀ p ∈ Dict.put t d m, Dict.WF p.2 := by
  refine ⟨ht.1.put d m, ?_⟩
  rintro ⟨k, v⟩ hp
  have := Dict.get?_of_mem (ht.1.put d m) hp
  by_cases hk : k = d
  · subst hk
    rw [Dict.get?_put_self] at this
    rw [← Option.some.inj this]; exact hm
  · rw [Dict.get?_put_ne _ _ (Ne.symm hk)] at this
    exact ht.2 _ (Dict.mem_of_get? this)

theorem numberEntities_wf {N : Type} (topo : Topology ℕ) (pts : ℕ → ℕ → Option (List N)) {r : ℕ × List N × EntityIds ℕ}
    (h : numberEntities topo pts = some r) : Topology.WF r.2.2 := by
  unfold numberEntities at h
  refine foldlM_keep _ (fun st : ℕ × List N × EntityIds ℕ => Topology.WF st.2.2) ?_ _ _ _ ⟨by simp [Dict.WF, Dict.keys], by simp⟩ h
  intro st p st' hst h'
  refine foldlM_keep _ (fun st : ℕ × List N × EntityIds ℕ => Topology.WF st.2.2) ?_ _ _ _
    (show Topology.WF (Dict.put st.2.2 p.1 []) from topology_wf_put hst p.1 (m := []) (by simp [Dict.WF, Dict.keys])) h'
  intro st q st' hst h'
  simp only [Option.bind_eq_bind, Option.bind_eq_some_iff] at h'
  obtain ⟨new, -, inner, h2, h3⟩ := h'
  rw [← Option.some.inj h3]
  exact topology_wf_put hst p.1 ((hst.2 _ (Dict.mem_of_get? h2)).put q.1 _)

section
variable {D : ℕ}

theorem lagrange_ids_wf {s : SimplexCell (Fin D → ℝ)} {k : ℕ} {nodes : List (Fin D → ℝ)} {ids : EntityIds ℕ}
    (h : lagrangeDual ℝ s k = some (nodes, ids)) : Topology.WF ids := by
  unfold lagrangeDual at h
  obtain ⟨r, h1, h2⟩ := Option.map_eq_some_iff.1 h
  have := numberEntities_wf s.topo _ h1
  rw [← (Prod.mk.inj h2).2]; exact this

/-- The dofs of an entity, in their order, are the evaluations at the points of `make_points` on it. -/
theorem lagrange_dof_points (s : SimplexCell (Fin D → ℝ)) (hs : FullSimplex s) (k : ℕ) (hk : 1 ≤ k)
    (nodes : List (Fin D → ℝ)) (ids : EntityIds ℕ) (hdual : lagrangeDual ℝ s k = some (nodes, ids)) :
    ∀ d e l, ids.at? d e = some l → l.map (fun i => nodes[i]?) = ((makePoints ℝ s d e k).getD []).map some := by
  have hP' : ∀ d e v, HasEntity s.topo d e v → makePoints ℝ s d e k = some (((makePoints ℝ s d e k)).getD []) := by
    intro d e v h
    obtain ⟨pts, h1, _⟩ := make_points_mem (K := ℝ) s hs k hk h
    rw [h1]; rfl
  obtain ⟨nodes', ids', hnum, _, h⟩ := number_entities_spec s.topo hs.wf
    (fun d e => makePoints ℝ s d e k) (fun x => (makePoints ℝ s x.1 x.2 k).getD []) hP'
  rw [lagrangeDual, hnum, Option.map_some, Option.some.injEq, Prod.mk.injEq] at hdual
  obtain ⟨rfl, rfl⟩ := hdual
  exact h.2.2.2

theorem lagrange_core (hD : D = 1 ∨ D = 2 ∨ D = 3) (s : SimplexCell (Fin D → ℝ)) (hs : ProperSimplex ℝ s)
    (hv : Increasing fun i : Fin (D + 1) => s.v i) (k : ℕ) (hk : 1 ≤ k) :
    ∃ el ids nodes, lagrangeElement s k = some (el, ids) ∧ lagrangeDual ℝ s k = some (nodes, ids) ∧ nodes.length = (k + D).choose D ∧
      el.sd = D ∧ ∃ φ : Fin ((k + D).choose D) → MvPolynomial (Fin D) ℝ, BaseSpec φ el.base ∧ DmatSpec φ el.dmats ∧
      (∀ (i : ℕ) x, nodes[i]? = some x → ∀ j : Fin ((k + D).choose D), eval x (el.member φ j ()) = if i = (j : ℕ) then 1 else 0) ∧
      ∀ w, w ∈ Submodule.span ℝ (Set.range (el.member φ)) ↔ (w ()).totalDegree ≤ k := by
  obtain ⟨mats, h1, φ, hdeg, h2, h3, h4⟩ := on_core hD s hs hv k
  obtain ⟨hsd, hfull, hnd, hcell⟩ := id hs
  obtain ⟨nodes, ids, d1, d2⟩ := lagrange_num_nodes (K := ℝ) s hfull hnd k hk (by omega)
  rw [hsd] at d2
  obtain ⟨S', c1, c2⟩ := lagrange_ciarlet s hsd hfull hnd (by omega) k hk rfl φ hdeg h2.1 _ h3 mats h4 nodes ids d1
  have hS : S'.base = expTab s.verts k ∧ S'.dmats = mats ∧ S'.sd = D := by
    unfold ciarletElement at c1
    simp only [Option.bind_eq_bind, Option.bind_eq_some_iff] at c1
    obtain ⟨M, -, new, -, e⟩ := c1
    rw [show S' = _ from (Option.some.inj e).symm]
    exact ⟨rfl, rfl, rfl⟩
  have hdeg' : ∀ j, (S'.member φ j ()).totalDegree ≤ k := by
    intro j
    unfold PolySet.member
    refine totalDegree_finsetSum_le fun i _ => ?_
    refine (totalDegree_mul _ _).trans ?_
    rw [totalDegree_C, zero_add]; exact hdeg i
  refine ⟨S', ids, nodes, ?_, d1, d2, hS.2.2, φ, hS.1 ▸ h3, hS.2.1 ▸ h4, c2, fun w => ?_⟩
  · unfold lagrangeElement
    simp only [h1, Option.bind_eq_bind, Option.bind_some, d1]
    have c1' : ciarletElement (onExpTab ((k + D).choose D) D (onScalarSet ((k + D).choose D) D (expTab s.verts k) mats).base
      (onScalarSet ((k + D).choose D) D (expTab s.verts k) mats).dmats) (fun _ : Unit => [])
      (onScalarSet ((k + D).choose D) D (expTab s.verts k) mats) (nodes.map pointEvaluation) = some S' := by
      convert c1 <;> rfl
    rw [c1']
    rfl
  · rw [Submodule.mem_span_range_iff_exists_fun ℝ]
    constructor
    · rintro ⟨c, rfl⟩
      rw [Finset.sum_apply]
      refine totalDegree_finsetSum_le fun j _ => ?_
      exact (totalDegree_smul_le _ _).trans (hdeg' j)
    · intro hw
      have hget : ∀ j : Fin ((k + D).choose D), ∃ x, nodes[(j : ℕ)]? = some x := fun j =>
        ⟨_, List.getElem?_eq_getElem (by rw [d2]; exact j.2)⟩
      choose x hx using hget
      refine ⟨fun j => eval (x j) (w ()), ?_⟩
      funext u
      have hz := lagrange_unisolvent s hsd hfull hnd (by omega) k hk nodes ids d1
        (w () - ∑ j, eval (x j) (w ()) • S'.member φ j ()) (by
          refine (totalDegree_sub _ _).trans (max_le hw ?_)
          refine totalDegree_finsetSum_le fun j _ => ?_
          exact (totalDegree_smul_le _ _).trans (hdeg' j)) (by
          intro y hy
          obtain ⟨i, hi⟩ := List.mem_iff_getElem?.1 hy
          have hil : i < (k + D).choose D := by
            rw [← d2]; exact (List.getElem?_eq_some_iff.1 hi).1
          rw [map_sub, map_sum, Finset.sum_eq_single (⟨i, hil⟩ : Fin ((k + D).choose D))]
          · have hxy : x ⟨i, hil⟩ = y := Option.some.inj ((hx ⟨i, hil⟩).symm.trans hi)
            rw [smul_eval, c2 i y hi, if_pos rfl, mul_one, hxy, sub_self]
          · intro b _ hb
            rw [smul_eval, c2 i y hi, if_neg (fun h => hb (Fin.ext h.symm)), mul_zero]
          · simp)
      rw [Finset.sum_apply]
      exact (sub_eq_zero.1 hz).symm

end
end FIAT
