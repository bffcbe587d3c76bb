/-
The order of the keys of the `entity_ids` built by the entity-by-entity loop.
-/
import Verif.Props.Dofs

namespace FIAT
variable {δ : Type} [LinearOrder δ] {N : Type}

private theorem order_inner (d : δ) (pts : δ → ℕ → Option (List N)) (L : List (ℕ × List ℕ)) (st st' : ℕ × List N × EntityIds δ)
    (es0 : Dict ℕ (List ℕ)) (h0 : st.2.2.get? d = some es0) (hwf : Dict.WF st.2.2)
    (hnd : (Dict.keys es0 ++ L.map Prod.fst).Nodup)
    (h : L.foldlM (fun (st : ℕ × List N × EntityIds δ) (q : ℕ × List ℕ) => (do
        let new ← pts d q.1
        let inner ← st.2.2.get? d
        some (st.1 + new.length, st.2.1 ++ new, Dict.put st.2.2 d (Dict.put inner q.1 (List.range' st.1 new.length))) :
          Option (ℕ × List N × EntityIds δ))) st = some st') :
    Dict.WF st'.2.2 ∧ (∃ es, st'.2.2.get? d = some es ∧ Dict.keys es = Dict.keys es0 ++ L.map Prod.fst) ∧
      ∀ d', d' ≠ d → st'.2.2.get? d' = st.2.2.get? d' := by
  induction L generalizing st es0 with
  | nil =>
    rw [List.foldlM_nil] at h
    obtain rfl := Option.some.inj h
    exact ⟨hwf, ⟨es0, h0, by simp⟩, fun _ _ => rfl⟩
  | cons q L ih =>
    rw [List.foldlM_cons] at h
    obtain ⟨st1, h1, h2⟩ := Option.bind_eq_some_iff.1 h
    obtain ⟨new, h3, h4⟩ := Option.bind_eq_some_iff.1 h1
    rw [h0] at h4
    simp only [Option.bind_eq_bind, Option.bind_some, Option.some.injEq] at h4
    have hq : q.1 ∉ Dict.keys es0 := by
      intro hm
      rw [List.map_cons, List.nodup_append] at hnd
      exact hnd.2.2 _ hm _ (List.mem_cons_self ..) rfl
    have hk : Dict.keys (Dict.put es0 q.1 (List.range' st.1 new.length)) = Dict.keys es0 ++ [q.1] := by
      rw [Dict.put_of_not_mem _ _ _ hq]
      simp [Dict.keys]
    subst h4
    obtain ⟨g1, ⟨es, g2, g3⟩, g4⟩ := ih _ (Dict.put es0 q.1 (List.range' st.1 new.length))
      (by rw [Dict.get?_put, if_pos rfl]) (Dict.WF.put hwf _ _) (by
        rw [hk]; simpa [List.append_assoc] using hnd) h2
    refine ⟨g1, ⟨es, g2, by rw [g3, hk]; simp⟩, fun d' hd' => ?_⟩
    rw [g4 d' hd', Dict.get?_put, if_neg (Ne.symm hd')]

/-- The dictionaries of the loop list the entities of each dimension in increasing order. -/
theorem numberEntities_keys (topo : Topology δ) (ht : topo.WF) (pts : δ → ℕ → Option (List N)) {c : ℕ} {nodes : List N}
    {ids : EntityIds δ} (h : numberEntities topo pts = some (c, nodes, ids)) :
    Topology.WF ids ∧ ∀ d es, ids.get? d = some es → ∃ es', topo.get? d = some es' ∧ Dict.keys es = pySorted (Dict.keys es') := by
  have hsk : ∀ es : Dict ℕ (List ℕ), (sortedItems es).map Prod.fst = pySorted (Dict.keys es) := by
    intro es
    refine List.Perm.eq_of_pairwise (fun a b _ _ h1 h2 => le_antisymm h1 h2) ?_ (pySorted_pairwise _)
      (((sortedItems_perm es).map Prod.fst).trans (pySorted_perm _).symm)
    exact List.pairwise_map.2 (sortedItems_pairwise es)
  have key : ∀ (L : List (δ × Dict ℕ (List ℕ))) (st st' : ℕ × List N × EntityIds δ), (∀ p ∈ L, Dict.WF p.2) → Dict.WF st.2.2 →
      L.foldlM (fun st p => (sortedItems p.2).foldlM (fun (st : ℕ × List N × EntityIds δ) (q : ℕ × List ℕ) => (do
        let new ← pts p.1 q.1
        let inner ← st.2.2.get? p.1
        some (st.1 + new.length, st.2.1 ++ new, Dict.put st.2.2 p.1 (Dict.put inner q.1 (List.range' st.1 new.length))) :
          Option (ℕ × List N × EntityIds δ))) (st.1, st.2.1, Dict.put st.2.2 p.1 [])) st = some st' →
      Dict.WF st'.2.2 ∧ ∀ d es, st'.2.2.get? d = some es → st.2.2.get? d = some es ∨
        ∃ p ∈ L, p.1 = d ∧ Dict.keys es = pySorted (Dict.keys p.2) := by
    intro L
    induction L with
    | nil =>
      intro st st' _ hw h
      rw [List.foldlM_nil] at h
      obtain rfl := Option.some.inj h
      exact ⟨hw, fun d es h => Or.inl h⟩
    | cons p L ih =>
      intro st st' hL hw h
      rw [List.foldlM_cons] at h
      obtain ⟨st1, h1, h2⟩ := Option.bind_eq_some_iff.1 h
      have hnd : (pySorted (Dict.keys p.2)).Nodup := (pySorted_perm _).nodup_iff.2 (hL p (by simp))
      obtain ⟨g1, ⟨es1, g2, g3⟩, g4⟩ := order_inner p.1 pts (sortedItems p.2) _ st1 []
        (by rw [Dict.get?_put, if_pos rfl]) (Dict.WF.put hw _ _) (by
          rw [hsk]; simpa [Dict.keys] using hnd) h1
      obtain ⟨k1, k2⟩ := ih st1 st' (fun q hq => hL q (by simp [hq])) g1 h2
      refine ⟨k1, fun d es hd => ?_⟩
      rcases k2 d es hd with hd | ⟨q, hq, hqd, hk⟩
      · by_cases hdp : d = p.1
        · subst hdp
          rw [g2, Option.some.injEq] at hd
          subst hd
          exact Or.inr ⟨p, by simp, rfl, by rw [g3, hsk]; simp [Dict.keys]⟩
        · left
          rw [g4 d hdp, Dict.get?_put, if_neg (Ne.symm hdp)] at hd
          exact hd
      · exact Or.inr ⟨q, by simp [hq], hqd, hk⟩
  obtain ⟨k1, k2⟩ := key (sortedItems topo) (0, [], []) (c, nodes, ids) (fun p hp => ht.2 p (mem_sortedItems.1 hp))
    (by simp [Dict.WF, Dict.keys]) h
  have k3 : ∀ d es, ids.get? d = some es → ∃ es', topo.get? d = some es' ∧ Dict.keys es = pySorted (Dict.keys es') := by
    intro d es hd
    rcases k2 d es hd with hd | ⟨p, hp, rfl, hk⟩
    · simp at hd
    · exact ⟨p.2, Dict.get?_of_mem ht.1 (mem_sortedItems.1 hp), hk⟩
  refine ⟨⟨k1, fun p hp => ?_⟩, k3⟩
  obtain ⟨es', h1, h2⟩ := k3 p.1 p.2 (Dict.get?_of_mem k1 hp)
  unfold Dict.WF
  rw [h2]
  exact (pySorted_perm _).nodup_iff.2 (ht.2 _ (Dict.mem_of_get? h1))

end FIAT
