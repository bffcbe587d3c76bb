/-
The loop over the entities of one dimension of a dual set (`entityLoop`): nodes, counter and `entity_ids`.
-/
import Verif.Model.ScalarElements
import Verif.Lemmas.Layout
import Mathlib.Data.List.Sort

namespace FIAT
section
variable {D : ℕ} {N : Type}

/-- The entities of dimension `d` are visited in the order of their numbers. -/
theorem sorted_keys {s : SimplexCell (Fin D → ℝ)} (hs : NumberedSimplex s) {d : ℕ} (hd : d ≤ D) :
    ∃ es, Dict.get? s.topo d = some es ∧ es.length = (D + 1).choose (d + 1) ∧ (Dict.keys es).Nodup ∧
      (∀ e, e ∈ Dict.keys es ↔ e < (D + 1).choose (d + 1)) ∧
      (sortedItems es).map Prod.fst = List.range ((D + 1).choose (d + 1)) := by
  obtain ⟨h1, h2⟩ := hs.1 d hd
  unfold numEnts at h1
  rw [Option.map_eq_some_iff] at h1
  obtain ⟨es, h3, h4⟩ := h1
  have hmem : ∀ e, e ∈ Dict.keys es ↔ e < (D + 1).choose (d + 1) := by
    intro e
    rw [← h2 e, ← Dict.get?_isSome_iff, Option.isSome_iff_exists]
    unfold HasEntity
    rw [h3]
    simp
  have hnd : (Dict.keys es).Nodup := by
    have e1 : (Dict.keys es).toFinset = Finset.range ((D + 1).choose (d + 1)) := by
      ext e; rw [List.mem_toFinset, hmem, Finset.mem_range]
    have e2 : (Dict.keys es).dedup.length = (Dict.keys es).length := by
      rw [← List.card_toFinset, e1, Finset.card_range]
      unfold Dict.keys
      rw [List.length_map, h4]
    exact List.dedup_eq_self.1 ((List.dedup_sublist _).eq_of_length e2)
  have hnd' : ((sortedItems es).map Prod.fst).Nodup := (((sortedItems_perm es).map Prod.fst).nodup_iff).2 hnd
  refine ⟨es, h3, h4, hnd, hmem, ?_⟩
  refine List.Perm.eq_of_pairwise' (r := (· ≤ ·)) ?_ ?_ ?_
  · rw [List.pairwise_map]; exact sortedItems_pairwise es
  · exact List.pairwise_le_range
  · refine (List.perm_ext_iff_of_nodup hnd' List.nodup_range).2 fun e => ?_
    rw [List.mem_range, ← hmem e, ((sortedItems_perm es).map Prod.fst).mem_iff]
    rfl

/-- Loop invariant: the entities of `L` have been visited, with blocks `blk`. -/
structure LoopInv (blk : ℕ × ℕ → List N) (L : List (ℕ × ℕ)) (st : ℕ × List N × EntityIds ℕ) : Prop where
  cur : st.1 = (blockLoop (fun x => (blk x).length) L (0, ([] : EntityIds ℕ))).1
  nodes : st.2.1 = L.flatMap blk
  ids : ∀ d e, st.2.2.at? d e = (blockLoop (fun x => (blk x).length) L (0, ([] : EntityIds ℕ))).2.at? d e

theorem loopInv_nil (blk : ℕ × ℕ → List N) : LoopInv blk [] (0, [], []) := ⟨rfl, rfl, fun _ _ => rfl⟩

theorem chunk_fold (d e : ℕ) (chunks : List (ℕ × List N)) (hc : ∀ c ∈ chunks, c.1 = c.2.length) (a n : ℕ) (nodes : List N) (ids : EntityIds ℕ)
    (st : ℕ × List N × EntityIds ℕ) (h1 : st.1 = a + n) (h2 : st.2.1 = nodes)
    (h3 : ∀ d' e', st.2.2.at? d' e' = if d = d' ∧ e = e' then some (List.range' a n) else ids.at? d' e') :
    (chunks.foldl (chunkStep d e) st).1 = a + n + (chunks.flatMap Prod.snd).length ∧
    (chunks.foldl (chunkStep d e) st).2.1 = nodes ++ chunks.flatMap Prod.snd ∧
    ∀ d' e', (chunks.foldl (chunkStep d e) st).2.2.at? d' e' =
      if d = d' ∧ e = e' then some (List.range' a (n + (chunks.flatMap Prod.snd).length)) else ids.at? d' e' := by
  induction chunks generalizing n nodes st with
  | nil => simpa using ⟨h1, h2, h3⟩
  | cons c cs ih =>
    rw [List.foldl_cons]
    have hc0 := hc c (by simp)
    obtain ⟨i1, i2, i3⟩ := ih (fun c' hc' => hc c' (by simp [hc'])) (n + c.2.length) (nodes ++ c.2) (chunkStep d e st c)
      (by simp only [chunkStep, h1, hc0]; omega) (by simp only [chunkStep, h2])
      (by
        intro d' e'
        have : st.2.2.at? d e = some (List.range' a n) := by rw [h3, if_pos ⟨rfl, rfl⟩]
        simp only [chunkStep, setIds_at, this, Option.getD_some, h1, hc0]
        by_cases hde : d = d' ∧ e = e'
        · rw [if_pos hde, if_pos hde]
          congr 1
          have := List.range'_append (s := a) (m := n) (n := c.2.length) (step := 1)
          rw [Nat.one_mul] at this
          rw [this]
        · rw [if_neg hde, if_neg hde, h3, if_neg hde])
    refine ⟨?_, ?_, fun d' e' => ?_⟩
    · rw [i1, List.flatMap_cons, List.length_append]; omega
    · rw [i2, List.flatMap_cons, List.append_assoc]
    · rw [i3, List.flatMap_cons, List.length_append, ← Nat.add_assoc]

theorem LoopInv.step {blk : ℕ × ℕ → List N} {L : List (ℕ × ℕ)} {st : ℕ × List N × EntityIds ℕ} (h : LoopInv blk L st) (d e : ℕ)
    (chunks : List (ℕ × List N)) (hc : ∀ c ∈ chunks, c.1 = c.2.length) (hb : chunks.flatMap Prod.snd = blk (d, e)) :
    LoopInv blk (L ++ [(d, e)]) (chunks.foldl (chunkStep d e) (st.1, st.2.1, setIds st.2.2 d e [])) := by
  obtain ⟨i1, i2, i3⟩ := chunk_fold d e chunks hc st.1 0 st.2.1 st.2.2 (st.1, st.2.1, setIds st.2.2 d e []) rfl rfl
    (fun d' e' => by simp [setIds_at])
  rw [hb] at i1 i2 i3
  refine ⟨?_, ?_, fun d' e' => ?_⟩
  · rw [i1, blockLoop_append, h.cur]; rfl
  · rw [i2, h.nodes, List.flatMap_append]; simp
  · rw [i3, blockLoop_append]
    change _ = (blockStep _ _ (d, e)).2.at? d' e'
    simp only [blockStep, setIds_at, Nat.zero_add, h.cur, h.ids]

theorem inner_chunks {blk : ℕ × ℕ → List N} (d : ℕ) (f : ℕ → Option (List (ℕ × List N))) (es : List (ℕ × List ℕ))
    (hf : ∀ q ∈ es, ∃ chunks, f q.1 = some chunks ∧ (∀ c ∈ chunks, c.1 = c.2.length) ∧ chunks.flatMap Prod.snd = blk (d, q.1))
    (L : List (ℕ × ℕ)) (st : ℕ × List N × EntityIds ℕ) (h : LoopInv blk L st) :
    ∃ st', es.foldlM (fun (st : ℕ × List N × EntityIds ℕ) (q : ℕ × List ℕ) => (f q.1).map fun chunks =>
      chunks.foldl (chunkStep d q.1) (st.1, st.2.1, setIds st.2.2 d q.1 [])) st = some st' ∧
      LoopInv blk (L ++ (es.map Prod.fst).map fun e => (d, e)) st' := by
  induction es generalizing L st with
  | nil => exact ⟨st, rfl, by simpa using h⟩
  | cons q es ih =>
    obtain ⟨chunks, c1, c2, c3⟩ := hf q (by simp)
    obtain ⟨st', s1, s2⟩ := ih (fun q' hq' => hf q' (by simp [hq'])) _ _ (h.step d q.1 chunks c2 c3)
    refine ⟨st', ?_, ?_⟩
    · rw [List.foldlM_cons, c1]
      exact s1
    · simpa using s2

/-- The loop over the entities of dimension `d`. -/
theorem entityLoop_spec {s : SimplexCell (Fin D → ℝ)} (hs : NumberedSimplex s) {d : ℕ} (hd : d ≤ D) {blk : ℕ × ℕ → List N}
    (f : ℕ → Option (List (ℕ × List N)))
    (hf : ∀ e < (D + 1).choose (d + 1), ∃ chunks, f e = some chunks ∧ (∀ c ∈ chunks, c.1 = c.2.length) ∧
      chunks.flatMap Prod.snd = blk (d, e))
    {L : List (ℕ × ℕ)} (hL : ∀ x ∈ L, x.1 ≠ d) (hnd : L.Nodup) {st : ℕ × List N × EntityIds ℕ} (h : LoopInv blk L st) :
    ∃ st', entityLoop s d f st = some st' ∧ LoopInv blk (L ++ entsOf D d) st' := by
  obtain ⟨es, h1, -, -, h2, h3⟩ := sorted_keys hs hd
  have h0 : LoopInv blk L (st.1, st.2.1, Dict.put st.2.2 d []) := by
    refine ⟨h.cur, h.nodes, fun d' e' => ?_⟩
    simp only [EntityIds.at?_put]
    split_ifs with hdd
    · subst hdd
      rw [(blockLoop_spec _ L hnd _).2, if_neg (fun hm => hL _ hm rfl)]
      rfl
    · exact h.ids d' e'
  obtain ⟨st', s1, s2⟩ := inner_chunks d f (sortedItems es) (fun q hq => hf q.1 (by
    rw [← List.mem_range, ← h3]; exact List.mem_map_of_mem hq)) L _ h0
  refine ⟨st', ?_, ?_⟩
  · unfold entityLoop
    rw [h1]
    exact s1
  · rw [h3] at s2
    exact s2

/-- All entities have been visited. -/
theorem LoopInv.blocks {s : SimplexCell (Fin D → ℝ)} (hs : NumberedSimplex s) {blk : ℕ × ℕ → List N} {L : List (ℕ × ℕ)}
    {st : ℕ × List N × EntityIds ℕ} (h : LoopInv blk L st) (hnd : L.Nodup) (hL : ∀ x, x ∈ L ↔ ∃ v, HasEntity s.topo x.1 x.2 v) :
    EntityBlocks s.topo L blk st.2.1 st.2.2 := by
  rw [h.nodes]
  refine entityBlocks_intro blk (fun x => (blk x).length) hnd (fun x hx => (hL x).1 hx) (fun _ _ => rfl) [] _ ?_ ?_ h.ids
  · intro d e hm hv
    exact absurd ((hL (d, e)).2 hv) hm
  · intro d e _
    rfl

/-- All entities of a simplex, by dimension. -/
def allEnts (D : ℕ) : List (ℕ × ℕ) := (List.range (D + 1)).flatMap (entsOf D)

theorem mem_allEnts {s : SimplexCell (Fin D → ℝ)} (hs : NumberedSimplex s) (x : ℕ × ℕ) :
    x ∈ allEnts D ↔ ∃ v, HasEntity s.topo x.1 x.2 v := by
  unfold allEnts
  rw [List.mem_flatMap]
  constructor
  · rintro ⟨d, hd, hx⟩
    exact ents_entity hs (by have := List.mem_range.1 hd; omega) x hx
  · rintro ⟨v, hv⟩
    have hd := hs.2 _ _ _ hv
    exact ⟨x.1, List.mem_range.2 (by omega), mem_entsOf.2 ⟨rfl, ((hs.1 _ hd).2 _).1 ⟨v, hv⟩⟩⟩

theorem entsFlat_nodup (n : ℕ) : ((List.range n).flatMap (entsOf D)).Nodup := by
  rw [List.nodup_flatMap]
  refine ⟨fun d _ => entsOf_nodup D d, ?_⟩
  refine List.nodup_range.imp ?_
  intro a b hab x hx hx'
  exact hab ((mem_entsOf.1 hx).1.symm.trans (mem_entsOf.1 hx').1)

end
end FIAT
