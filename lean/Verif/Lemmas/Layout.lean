/-
The dof layout of elements whose entities receive consecutive blocks of nodes (C23).
-/
import Verif.Model.VectorElements
import Verif.Lemmas.Blocks
import Verif.Props.Discontinuous

namespace FIAT
section
variable {N : Type}

/-- Specification: the nodes are the blocks `blk x` of the entities `x` of `L`, in that order; `ids` gives every entity of
`L` the numbers of its block, every other entity of the topology the empty list, and contains nothing else. -/
def EntityBlocks (topo : Topology ℕ) (L : List (ℕ × ℕ)) (blk : ℕ × ℕ → List N) (nodes : List N) (ids : EntityIds ℕ) : Prop :=
  nodes = L.flatMap blk ∧ L.Nodup ∧ (∀ x ∈ L, ∃ v, HasEntity topo x.1 x.2 v) ∧
  (∀ d e, (d, e) ∈ L → ids.at? d e = some (List.range' (blockBefore (fun x => (blk x).length) L (d, e)) (blk (d, e)).length)) ∧
  (∀ d e, (d, e) ∉ L → (∃ v, HasEntity topo d e v) → ids.at? d e = some []) ∧
  ∀ d e, (¬ ∃ v, HasEntity topo d e v) → ids.at? d e = none

theorem blockLoop_congr (n n' : ℕ × ℕ → ℕ) (L : List (ℕ × ℕ)) (h : ∀ x ∈ L, n x = n' x) (st : ℕ × EntityIds ℕ) :
    blockLoop n L st = blockLoop n' L st := by
  induction L generalizing st with
  | nil => rfl
  | cons a L ih =>
    change blockLoop n L (blockStep (n a) st a) = blockLoop n' L (blockStep (n' a) st a)
    rw [h a (by simp), ih fun x hx => h x (by simp [hx])]

theorem blockLoop_append (n : ℕ × ℕ → ℕ) (L L' : List (ℕ × ℕ)) (st : ℕ × EntityIds ℕ) :
    blockLoop n (L ++ L') st = blockLoop n L' (blockLoop n L st) := List.foldl_append ..

theorem partition_congr {ids ids' : EntityIds ℕ} {n : ℕ} (h : ∀ d e, ids.at? d e = ids'.at? d e)
    (hp : DofsPartition ids n) : DofsPartition ids' n := by
  unfold DofsPartition at hp ⊢
  simpa only [h] using hp

/-- What the loop of blocks produces, from a start `ids0` with empty entries. -/
theorem entityBlocks_intro {topo : Topology ℕ} {L : List (ℕ × ℕ)} (blk : ℕ × ℕ → List N) (n : ℕ × ℕ → ℕ)
    (hL : L.Nodup) (hent : ∀ x ∈ L, ∃ v, HasEntity topo x.1 x.2 v) (hn : ∀ x ∈ L, n x = (blk x).length)
    (ids0 ids : EntityIds ℕ)
    (h0 : ∀ d e, (d, e) ∉ L → (∃ v, HasEntity topo d e v) → ids0.at? d e = some [])
    (h0' : ∀ d e, (¬ ∃ v, HasEntity topo d e v) → ids0.at? d e = none)
    (h : ∀ d e, ids.at? d e = (blockLoop n L (0, ids0)).2.at? d e) :
    EntityBlocks topo L blk (L.flatMap blk) ids := by
  have e := blockLoop_congr n (fun x => (blk x).length) L hn (0, ids0)
  have hs := (blockLoop_spec (fun x => (blk x).length) L hL (0, ids0)).2
  simp only [e, hs] at h
  refine ⟨rfl, hL, hent, fun d e hm => ?_, fun d e hm hv => ?_, fun d e hv => ?_⟩
  · rw [h, if_pos hm]; simp
  · rw [h, if_neg hm, h0 d e hm hv]
  · rw [h, if_neg (fun hm => hv (hent _ hm)), h0' d e hv]

/-- C23: blocks are a partition of the dofs, and the dofs of an entity index its own nodes. -/
theorem EntityBlocks.layout {topo : Topology ℕ} {L : List (ℕ × ℕ)} {blk : ℕ × ℕ → List N} {nodes : List N}
    {ids : EntityIds ℕ} (h : EntityBlocks topo L blk nodes ids) :
    DofsPartition ids nodes.length ∧ SameEntities topo ids ∧
    (∀ d e, (d, e) ∈ L → ∃ l, ids.at? d e = some l ∧ l.map (fun i => nodes[i]?) = (blk (d, e)).map some) := by
  obtain ⟨rfl, hL, hent, h1, h2, h3⟩ := h
  have hs := (blockLoop_spec (fun x => (blk x).length) L hL (0, blankIds topo)).2
  have hat : ∀ d e, (blockLoop (fun x => (blk x).length) L (0, blankIds topo)).2.at? d e = ids.at? d e := by
    intro d e
    rw [hs]
    by_cases hm : (d, e) ∈ L
    · rw [if_pos hm, h1 d e hm]; simp
    · rw [if_neg hm]
      by_cases hv : ∃ v, HasEntity topo d e v
      · rw [h2 d e hm hv]; exact (blankIds_at topo d e []).2 ⟨rfl, hv⟩
      · rw [h3 d e hv]
        cases hc : (blankIds topo).at? d e with
        | none => rfl
        | some l => exact absurd ((blankIds_at topo d e l).1 hc).2 hv
  refine ⟨?_, ?_, ?_⟩
  · refine partition_congr hat ?_
    have := blockLoop_partition (fun x => (blk x).length) L hL (0, blankIds topo)
      (partition_zero _ fun d e l hl => ((blankIds_at topo d e l).1 hl).1)
      fun x _ l hl => ((blankIds_at topo _ _ l).1 hl).1
    rw [List.length_flatMap]
    simpa using this
  · intro d e
    by_cases hv : ∃ v, HasEntity topo d e v
    · by_cases hm : (d, e) ∈ L
      · rw [h1 d e hm]; simpa using hv
      · rw [h2 d e hm hv]; simpa using hv
    · rw [h3 d e hv]; simpa using hv
  · intro d e hm
    refine ⟨_, h1 d e hm, ?_⟩
    apply List.ext_getElem?
    intro j
    by_cases hj : j < (blk (d, e)).length
    · rw [List.getElem?_map, List.getElem?_range' hj, List.getElem?_map, Option.map_some, Nat.one_mul,
        flatMap_block blk L _ hm j hj, List.getElem?_eq_getElem hj]
      rfl
    · rw [List.getElem?_eq_none (by simpa using hj), List.getElem?_eq_none (by simpa using hj)]

end

section
variable {D : ℕ}

/-- Specification: the entities of dimension `d` are numbered `0, ..., C(D+1, d+1) - 1`. -/
def NumberedSimplex (s : SimplexCell (Fin D → ℝ)) : Prop :=
  (∀ d ≤ D, numEnts s d = some ((D + 1).choose (d + 1)) ∧
    ∀ e, (∃ t, HasEntity s.topo d e t) ↔ e < (D + 1).choose (d + 1)) ∧
  ∀ d e t, HasEntity s.topo d e t → d ≤ D

/-- Decidable form. -/
def numberedB (D : ℕ) (t : Topology ℕ) : Bool :=
  ((List.range (D + 1)).all fun d => match Dict.get? t d with
    | some es => decide (es.length = (D + 1).choose (d + 1)) &&
        (Dict.keys es).all (fun e => decide (e < (D + 1).choose (d + 1))) &&
        (List.range ((D + 1).choose (d + 1))).all fun e => decide (e ∈ Dict.keys es)
    | none => false) && t.all fun p => decide (p.1 ≤ D)

theorem numbered_of_bool (s : SimplexCell (Fin D → ℝ)) (h : numberedB D s.topo = true) : NumberedSimplex s := by
  simp only [numberedB, Bool.and_eq_true, List.all_eq_true, List.mem_range, decide_eq_true_eq] at h
  obtain ⟨h1, h2⟩ := h
  refine ⟨fun d hd => ?_, fun d e t ht => ?_⟩
  · have h := h1 d (by omega)
    unfold numEnts
    unfold HasEntity
    cases hg : Dict.get? s.topo d with
    | none => rw [hg] at h; simp at h
    | some es =>
      rw [hg] at h
      simp only [Bool.and_eq_true, List.all_eq_true, List.mem_range, decide_eq_true_eq] at h
      obtain ⟨⟨a, b⟩, c⟩ := h
      refine ⟨by rw [Option.map_some, a], fun e => ?_⟩
      constructor
      · rintro ⟨t, es', he, ht⟩
        rw [Option.some.injEq] at he
        subst he
        exact b e (Dict.get?_isSome_iff.1 (by rw [ht]; rfl))
      · intro he
        obtain ⟨t, ht⟩ := Option.isSome_iff_exists.1 (Dict.get?_isSome_iff.2 (c e he))
        exact ⟨t, es, rfl, ht⟩
  · obtain ⟨es, m, -⟩ := ht.mem
    exact h2 _ m

theorem numbered_ufcInterval : NumberedSimplex ((ufcInterval : CellData ℝ).toSimplex 1) := by
  have e : numberedB 1 ((ufcInterval : CellData ℤ).toSimplex 1).topo = true := by decide +kernel
  exact numbered_of_bool _ e
theorem numbered_ufcTriangle : NumberedSimplex ((ufcTriangle : CellData ℝ).toSimplex 2) := by
  have e : numberedB 2 ((ufcTriangle : CellData ℤ).toSimplex 2).topo = true := by decide +kernel
  exact numbered_of_bool _ e
theorem numbered_ufcTetrahedron : NumberedSimplex ((ufcTetrahedron : CellData ℝ).toSimplex 3) := by
  have e : numberedB 3 ((ufcTetrahedron : CellData ℤ).toSimplex 3).topo = true := by decide +kernel
  exact numbered_of_bool _ e

/-- The entities of one dimension, in the order of the loops. -/
def entsOf (D d : ℕ) : List (ℕ × ℕ) := (List.range ((D + 1).choose (d + 1))).map fun i => (d, i)

theorem mem_entsOf {D d : ℕ} {x : ℕ × ℕ} : x ∈ entsOf D d ↔ x.1 = d ∧ x.2 < (D + 1).choose (d + 1) := by
  unfold entsOf
  rw [List.mem_map]
  constructor
  · rintro ⟨i, hi, rfl⟩; exact ⟨rfl, List.mem_range.1 hi⟩
  · rintro ⟨rfl, h⟩; exact ⟨x.2, List.mem_range.2 h, rfl⟩

theorem entsOf_nodup (D d : ℕ) : (entsOf D d).Nodup :=
  List.nodup_range.map fun _ _ h => (Prod.mk.inj h).2

theorem entsOf_top (D : ℕ) : entsOf D D = [(D, 0)] := by
  unfold entsOf
  rw [Nat.choose_self]; rfl

theorem inner_empty (d n : ℕ) (ids : EntityIds ℕ) (d' e' : ℕ) :
    ((List.range n).foldl (fun (ids : EntityIds ℕ) (j : ℕ) => setIds ids d j []) ids).at? d' e' =
      if d' = d ∧ e' < n then some [] else ids.at? d' e' := by
  induction n with
  | zero => simp
  | succ n ih =>
    rw [List.range_succ, List.foldl_append, List.foldl_cons, List.foldl_nil, setIds_at, ih]
    by_cases h1 : d = d' ∧ n = e'
    · rw [if_pos h1, if_pos ⟨h1.1.symm, by omega⟩]
    · rw [if_neg h1]
      by_cases h2 : d' = d ∧ e' < n
      · rw [if_pos h2, if_pos ⟨h2.1, by omega⟩]
      · rw [if_neg h2, if_neg]
        rintro ⟨a, b⟩
        apply h2
        refine ⟨a, ?_⟩
        by_contra hc
        exact h1 ⟨a.symm, by omega⟩

theorem emptyLoop_spec {s : SimplexCell (Fin D → ℝ)} (hs : NumberedSimplex s) (dims : List ℕ) (hd : ∀ d ∈ dims, d ≤ D)
    (ids : EntityIds ℕ) :
    ∃ ids', emptyLoop s dims ids = some ids' ∧ ∀ d e, ids'.at? d e =
      if d ∈ dims ∧ e < (D + 1).choose (d + 1) then some [] else ids.at? d e := by
  induction dims generalizing ids with
  | nil => exact ⟨ids, rfl, by simp⟩
  | cons a dims ih =>
    obtain ⟨ids', h1, h2⟩ := ih (fun d hd' => hd d (by simp [hd'])) ((List.range ((D + 1).choose (a + 1))).foldl
      (fun (ids : EntityIds ℕ) (j : ℕ) => setIds ids a j []) ids)
    refine ⟨ids', ?_, fun d e => ?_⟩
    · unfold emptyLoop at h1 ⊢
      rw [List.foldlM_cons, (hs.1 a (hd a (by simp))).1]
      exact h1
    · rw [h2, inner_empty]
      by_cases h3 : d ∈ dims ∧ e < (D + 1).choose (d + 1)
      · rw [if_pos h3, if_pos ⟨by simp [h3.1], h3.2⟩]
      · rw [if_neg h3]
        by_cases h4 : d = a
        · subst h4
          by_cases h5 : e < (D + 1).choose (d + 1)
          · rw [if_pos ⟨rfl, h5⟩, if_pos ⟨by simp, h5⟩]
          · rw [if_neg (fun h => h5 h.2), if_neg (fun h => h5 h.2)]
        · rw [if_neg (fun h => h4 h.1), if_neg]
          rintro ⟨h5, h6⟩
          rcases List.mem_cons.1 h5 with h | h
          · exact h4 h
          · exact h3 ⟨h, h6⟩

theorem sameLoop_spec {s : SimplexCell (Fin D → ℝ)} (hs : NumberedSimplex s) (d n : ℕ) (hd : d ≤ D) (st : ℕ × EntityIds ℕ) :
    sameLoop s d n st = some (blockLoop (fun _ => n) (entsOf D d) st) := by
  unfold sameLoop
  rw [(hs.1 d hd).1]; rfl

theorem ents_entity {s : SimplexCell (Fin D → ℝ)} (hs : NumberedSimplex s) {d : ℕ} (hd : d ≤ D) :
    ∀ x ∈ entsOf D d, ∃ v, HasEntity s.topo x.1 x.2 v := by
  intro x hx
  obtain ⟨h1, h2⟩ := mem_entsOf.1 hx
  rw [h1]
  exact ((hs.1 d hd).2 x.2).2 h2

theorem ents_append_nodup {D d d' : ℕ} {L : List (ℕ × ℕ)} (hL : L.Nodup) (h : ∀ x ∈ L, x.1 ≠ d') :
    (L ++ entsOf D d').Nodup :=
  hL.append (entsOf_nodup D d') fun x hx hx' => h x hx (mem_entsOf.1 hx').1

/-- The `entity_ids` of `RTDualSet` and `BDMDualSet`, for any blocks of nodes of the recorded sizes. -/
theorem facetIds_spec (hD : 2 ≤ D) {s : SimplexCell (Fin D → ℝ)} (hs : NumberedSimplex s) (degree : ℕ) (internal : Option ℕ)
    {pts : List (Fin D → ℝ)} (hpts : makePoints ℝ s (D - 1) 0 (D + degree) = some pts) {N : Type} (blk : ℕ × ℕ → List N)
    (h1 : ∀ e < D + 1, (blk (D - 1, e)).length = pts.length) (h2 : (blk (D, 0)).length = internal.getD 0) :
    ∃ ids, facetIds s degree internal = some ids ∧
      EntityBlocks s.topo (entsOf D (D - 1) ++ entsOf D D) blk ((entsOf D (D - 1) ++ entsOf D D).flatMap blk) ids := by
  obtain ⟨ids0, a1, a2⟩ := emptyLoop_spec hs (List.range (D - 1)) (fun d hd => by have := List.mem_range.1 hd; omega) []
  have hc : (D + 1).choose (D - 1 + 1) = D + 1 := by
    rw [Nat.sub_add_cancel (by omega)]; simp
  have hlast : ∀ (ids : EntityIds ℕ) (cur d e : ℕ), (match internal with
      | none => setIds ids D 0 []
      | some n => setIds (setIds ids D 0 []) D 0 (List.range' cur n)).at? d e =
        (blockStep (internal.getD 0) (cur, ids) (D, 0)).2.at? d e := by
    intro ids cur d e
    cases internal with
    | none => simp [blockStep]
    | some n =>
      simp only [blockStep, Option.getD_some, setIds_at]
      by_cases h : D = d ∧ 0 = e
      · rw [if_pos h, if_pos h]
      · rw [if_neg h, if_neg h, if_neg h]
  have hval : facetIds s degree internal = some (match internal with
      | none => setIds (blockLoop (fun _ => pts.length) (entsOf D (D - 1)) (0, ids0)).2 D 0 []
      | some n => setIds (setIds (blockLoop (fun _ => pts.length) (entsOf D (D - 1)) (0, ids0)).2 D 0 []) D 0
        (List.range' (blockLoop (fun _ => pts.length) (entsOf D (D - 1)) (0, ids0)).1 n)) := by
    unfold facetIds
    simp only [a1, hpts, sameLoop_spec hs (D - 1) pts.length (by omega), Option.bind_eq_bind, Option.bind_some]
    cases internal <;> rfl
  refine ⟨_, hval, entityBlocks_intro blk (fun x => (blk x).length) ?_ ?_ (fun _ _ => rfl) ids0 _ ?_ ?_ ?_⟩
  · exact ents_append_nodup (d := D) (entsOf_nodup _ _) fun x hx h => by rw [(mem_entsOf.1 hx).1] at h; omega
  · intro x hx
    rcases List.mem_append.1 hx with h | h
    · exact ents_entity hs (by omega) x h
    · exact ents_entity hs le_rfl x h
  · intro d e hm hv
    rw [List.mem_append, not_or, mem_entsOf, mem_entsOf] at hm
    obtain ⟨v, hv⟩ := hv
    have hd := hs.2 d e v hv
    have he := ((hs.1 d hd).2 e).1 ⟨v, hv⟩
    have hlt : d < D - 1 := by
      by_contra hcon
      rcases (by omega : d = D - 1 ∨ d = D) with rfl | rfl
      · exact hm.1 ⟨rfl, he⟩
      · exact hm.2 ⟨rfl, he⟩
    rw [a2, if_pos ⟨List.mem_range.2 hlt, he⟩]
  · intro d e hv
    rw [a2, if_neg]
    · rfl
    · rintro ⟨h3, h4⟩
      have := List.mem_range.1 h3
      exact hv (((hs.1 d (by omega)).2 e).2 h4)
  · intro d e
    rw [hlast, blockLoop_append, entsOf_top]
    have e1 : blockLoop (fun x => (blk x).length) (entsOf D (D - 1)) (0, ids0) =
        blockLoop (fun _ => pts.length) (entsOf D (D - 1)) (0, ids0) := by
      refine blockLoop_congr _ _ _ (fun x hx => ?_) _
      obtain ⟨h3, h4⟩ := mem_entsOf.1 hx
      rw [hc] at h4
      rw [← h1 x.2 h4, ← h3]
    rw [e1, ← h2]
    rfl

end
end FIAT
