import Verif.Model.DofLayout
import Verif.Lemmas.PyDict
import Verif.Props.Cell

namespace FIAT
section
variable {δ : Type} [LinearOrder δ] {N : Type}

theorem EntityIds.at?_put (ids : EntityIds δ) (d d' : δ) (m : Dict ℕ (List ℕ)) (e : ℕ) :
    EntityIds.at? (Dict.put ids d m) d' e = if d = d' then m.get? e else ids.at? d' e := by
  unfold EntityIds.at?
  rw [Dict.get?_put]; split_ifs <;> rfl

/-- The sorted `(dim, entity)` pairs of a topology, in loop order. -/
def loopOrder (topo : Topology δ) : List (δ × ℕ) :=
  (sortedItems topo).flatMap fun p => (sortedItems p.2).map fun q => (p.1, q.1)

theorem mem_loopOrder {topo : Topology δ} (ht : topo.WF) (d : δ) (e : ℕ) :
    (d, e) ∈ loopOrder topo ↔ ∃ v, HasEntity topo d e v := by
  simp only [loopOrder, List.mem_flatMap, List.mem_map, mem_sortedItems, hasEntity_iff ht]
  constructor
  · rintro ⟨p, hp, q, hq, h⟩
    simp only [Prod.mk.injEq] at h
    obtain ⟨rfl, rfl⟩ := h
    exact ⟨q.2, p.2, hp, hq⟩
  · rintro ⟨v, es, h1, h2⟩
    exact ⟨(d, es), h1, (e, v), h2, rfl⟩

theorem loopOrder_sorted {topo : Topology δ} (ht : topo.WF) :
    (loopOrder topo).Pairwise (fun a b => a.1 < b.1 ∨ a.1 = b.1 ∧ a.2 < b.2) := by
  rw [loopOrder, List.pairwise_flatMap]
  constructor
  · intro p hp
    rw [List.pairwise_map]
    exact (sortedItems_pairwise_lt (ht.2 p (mem_sortedItems.1 hp))).imp fun h => Or.inr ⟨rfl, h⟩
  · refine (sortedItems_pairwise_lt ht.1).imp ?_
    intro a b hab x hx y hy
    simp only [List.mem_map] at hx hy
    obtain ⟨_, _, rfl⟩ := hx
    obtain ⟨_, _, rfl⟩ := hy
    exact Or.inl hab

theorem loopOrder_nodup {topo : Topology δ} (ht : topo.WF) : (loopOrder topo).Nodup := by
  refine (loopOrder_sorted ht).imp ?_
  rintro a b h rfl
  rcases h with h | h
  · exact lt_irrefl _ h
  · exact lt_irrefl _ h.2

/-- Number of nodes created before entity `x` in the order `L`. -/
def nodesBefore (P : δ × ℕ → List N) (L : List (δ × ℕ)) (x : δ × ℕ) : ℕ :=
  ((L.takeWhile (· ≠ x)).flatMap P).length

theorem takeWhile_ne_append {α : Type*} [DecidableEq α] (l r : List α) (x : α) (hx : x ∈ l) :
    (l ++ r).takeWhile (· ≠ x) = l.takeWhile (· ≠ x) := by
  induction l with
  | nil => simp at hx
  | cons a l ih =>
    rw [List.cons_append]
    by_cases h : a = x
    · subst h; simp [List.takeWhile_cons]
    · rw [List.takeWhile_cons, List.takeWhile_cons, if_pos (by simp [h]), if_pos (by simp [h]),
        ih (by simpa [Ne.symm h] using hx)]

theorem takeWhile_ne_of_not_mem {α : Type*} [DecidableEq α] (l r : List α) (x : α) (hx : x ∉ l) :
    (l ++ x :: r).takeWhile (· ≠ x) = l := by
  induction l with
  | nil => simp [List.takeWhile_cons]
  | cons a l ih =>
    simp only [List.mem_cons, not_or] at hx
    rw [List.cons_append, List.takeWhile_cons, if_pos (by simpa using Ne.symm hx.1), ih hx.2]

/-- Loop invariant: `done` are the entities already visited. -/
structure LayoutInv (P : δ × ℕ → List N) (done : List (δ × ℕ)) (st : ℕ × List N × EntityIds δ) : Prop where
  cur : st.1 = (done.flatMap P).length
  nodes : st.2.1 = done.flatMap P
  ids : ∀ d e, st.2.2.at? d e =
    if (d, e) ∈ done then some (List.range' (nodesBefore P done (d, e)) (P (d, e)).length) else none

theorem inner_loop (P : δ × ℕ → List N) (pts : δ → ℕ → Option (List N)) (d : δ)
    (qs : List (ℕ × List ℕ)) (done : List (δ × ℕ)) (st : ℕ × List N × EntityIds δ)
    (hP : ∀ q ∈ qs, pts d q.1 = some (P (d, q.1)))
    (hnd : (done ++ qs.map fun q => (d, q.1)).Nodup)
    (hd : d ∈ Dict.keys st.2.2)
    (hinv : LayoutInv P done st) :
    ∃ st', qs.foldlM (fun (st : ℕ × List N × EntityIds δ) q => do
        let new ← pts d q.1
        let inner ← st.2.2.get? d
        some (st.1 + new.length, st.2.1 ++ new,
          Dict.put st.2.2 d (Dict.put inner q.1 (List.range' st.1 new.length)))) st = some st' ∧
      LayoutInv P (done ++ qs.map fun q => (d, q.1)) st' ∧
      ∀ d', d' ∈ Dict.keys st'.2.2 ↔ d' ∈ Dict.keys st.2.2 := by
  induction qs generalizing done st with
  | nil => exact ⟨st, rfl, by simpa using hinv, fun _ => Iff.rfl⟩
  | cons q qs ih =>
    obtain ⟨inner, hin⟩ := Option.isSome_iff_exists.1 (Dict.get?_isSome_iff.2 hd)
    rw [List.foldlM_cons, hP q (by simp), hin]
    simp only [Option.bind_eq_bind, Option.bind_some]
    have hq : (d, q.1) ∉ done := by
      intro h
      rw [List.nodup_append] at hnd
      exact hnd.2.2 _ h (d, q.1) (by simp) rfl
    set st1 : ℕ × List N × EntityIds δ := (st.1 + (P (d, q.1)).length, st.2.1 ++ P (d, q.1),
      Dict.put st.2.2 d (Dict.put inner q.1 (List.range' st.1 (P (d, q.1)).length))) with hst1
    have hinv1 : LayoutInv P (done ++ [(d, q.1)]) st1 := by
      refine ⟨?_, ?_, ?_⟩
      · rw [hst1]; simp only [hinv.cur, List.flatMap_append, List.length_append, List.flatMap_cons,
          List.flatMap_nil, List.append_nil]
      · rw [hst1]; simp only [hinv.nodes, List.flatMap_append, List.flatMap_cons,
          List.flatMap_nil, List.append_nil]
      · intro d' e'
        rw [hst1]
        simp only [EntityIds.at?_put]
        by_cases hde : (d', e') = (d, q.1)
        · simp only [Prod.mk.injEq] at hde
          obtain ⟨rfl, rfl⟩ := hde
          rw [if_pos rfl, Dict.get?_put_self, if_pos (by simp), nodesBefore,
            takeWhile_ne_of_not_mem _ _ _ hq, hinv.cur]
        · have h1 : (if d = d' then (Dict.put inner q.1 (List.range' st.1 (P (d, q.1)).length)).get? e'
              else st.2.2.at? d' e') = st.2.2.at? d' e' := by
            split_ifs with hdd
            · subst hdd
              rw [Dict.get?_put_ne _ _ (by rintro rfl; exact hde rfl)]
              unfold EntityIds.at?
              rw [hin]; rfl
            · rfl
          rw [h1, hinv.ids]
          by_cases hmem : (d', e') ∈ done
          · rw [if_pos hmem, if_pos (by simp [hmem]), nodesBefore, nodesBefore,
              takeWhile_ne_append _ _ _ hmem]
          · rw [if_neg hmem, if_neg]
            rw [List.mem_append, List.mem_singleton]
            rintro (h | h)
            · exact hmem h
            · exact hde h
    obtain ⟨st', hst', hinv', hkeys⟩ := ih (done ++ [(d, q.1)]) st1
      (fun q' hq' => hP q' (List.mem_cons_of_mem _ hq')) (by simpa using hnd)
      (by rw [hst1]; exact (Dict.mem_keys_put _ _ _ _).2 (Or.inl rfl)) hinv1
    refine ⟨st', hst', by simpa using hinv', fun d' => ?_⟩
    rw [hkeys, hst1, Dict.mem_keys_put]
    constructor
    · rintro (rfl | h)
      · exact hd
      · exact h
    · exact Or.inr

/-- The double loop over any list of dimensions with their entities lays out the nodes consecutively. -/
theorem layout_fold (P : δ × ℕ → List N) (pts : δ → ℕ → Option (List N)) :
    ∀ (ps : List (δ × List (ℕ × List ℕ))) (done : List (δ × ℕ)) (st : ℕ × List N × EntityIds δ),
      (∀ p ∈ ps, ∀ q ∈ p.2, pts p.1 q.1 = some (P (p.1, q.1))) →
      (done ++ ps.flatMap fun p => (p.2).map fun q => (p.1, q.1)).Nodup →
      (∀ p ∈ ps, p.1 ∉ Dict.keys st.2.2) → (ps.map Prod.fst).Nodup →
      LayoutInv P done st →
      ∃ st', ps.foldlM (fun st p =>
        (p.2).foldlM (fun (st : ℕ × List N × EntityIds δ) q => do
          let new ← pts p.1 q.1
          let inner ← st.2.2.get? p.1
          some (st.1 + new.length, st.2.1 ++ new,
            Dict.put st.2.2 p.1 (Dict.put inner q.1 (List.range' st.1 new.length))))
        (st.1, st.2.1, Dict.put st.2.2 p.1 [])) st = some st' ∧
        LayoutInv P (done ++ ps.flatMap fun p => (p.2).map fun q => (p.1, q.1)) st' := by
  intro ps
  induction ps with
  | nil => intro done st _ _ _ _ hinv; exact ⟨st, rfl, by simpa using hinv⟩
  | cons p ps ih =>
    intro done st hpts hnd hfresh hkeysnd hinv
    rw [List.foldlM_cons]
    have hput : LayoutInv P done (st.1, st.2.1, Dict.put st.2.2 p.1 []) := by
      refine ⟨hinv.cur, hinv.nodes, fun d e => ?_⟩
      simp only [EntityIds.at?_put]
      split_ifs with h1 h2 h2
      · exfalso
        subst h1
        have := hinv.ids p.1 e
        rw [if_pos h2] at this
        unfold EntityIds.at? at this
        rcases hg : Dict.get? st.2.2 p.1 with _ | m
        · rw [hg] at this; simp at this
        · exact hfresh p (by simp) (Dict.get?_isSome_iff.1 (by rw [hg]; rfl))
      · rfl
      · rw [hinv.ids, if_pos h2]
      · rw [hinv.ids, if_neg h2]
    rw [List.flatMap_cons, ← List.append_assoc] at hnd
    obtain ⟨st1, h1, hinv1, hk1⟩ := inner_loop P pts p.1 (p.2) done _
      (hpts p (by simp)) ((List.nodup_append.1 hnd).1)
      ((Dict.mem_keys_put _ _ _ _).2 (Or.inl rfl)) hput
    rw [h1]
    simp only [Option.bind_eq_bind, Option.bind_some]
    obtain ⟨st', h2, hinv2⟩ := ih _ st1 (fun p' hp' => hpts p' (List.mem_cons_of_mem _ hp')) hnd (by
      intro p' hp' hk
      rw [hk1, Dict.mem_keys_put] at hk
      rcases hk with h | h
      · rw [List.map_cons, List.nodup_cons] at hkeysnd
        exact hkeysnd.1 (h ▸ List.mem_map_of_mem hp')
      · exact hfresh p' (List.mem_cons_of_mem _ hp') h) (by
      rw [List.map_cons, List.nodup_cons] at hkeysnd; exact hkeysnd.2) hinv1
    exact ⟨st', h2, by rw [List.flatMap_cons, ← List.append_assoc]; exact hinv2⟩

/-- The double loop visits the entities in sorted order and lays out their nodes consecutively. -/
theorem numberEntities_inv (topo : Topology δ) (ht : topo.WF) (pts : δ → ℕ → Option (List N))
    (P : δ × ℕ → List N) (hP : ∀ d e v, HasEntity topo d e v → pts d e = some (P (d, e))) :
    ∃ st, numberEntities topo pts = some st ∧ LayoutInv P (loopOrder topo) st := by
  unfold numberEntities
  have := layout_fold P pts ((sortedItems topo).map fun p => (p.1, sortedItems p.2)) [] (0, [], []) (by
      intro p hp q hq
      obtain ⟨p, hp', rfl⟩ := List.mem_map.1 hp
      exact hP _ _ q.2 ((hasEntity_iff ht).2 ⟨p.2, mem_sortedItems.1 hp', mem_sortedItems.1 hq⟩))
    (by
      have := loopOrder_nodup ht
      rw [List.nil_append, List.flatMap_map]; exact this) (by simp [Dict.keys])
    (by rw [List.map_map]; exact sortedItems_wf ht.1)
    ⟨rfl, rfl, fun d e => by simp [EntityIds.at?]⟩
  rw [List.foldlM_map] at this
  simpa [loopOrder, List.flatMap_map] using this

end
end FIAT
