/-
C24: mixed and enriched elements concatenate dofs without collision, and their tables are the tables of the
parts in disjoint blocks.
-/
import Verif.Lemmas.Combine
import Mathlib.Tactic.IntervalCases

namespace FIAT
section
variable {δ : Type} [LinearOrder δ]

/-- Specification: `ids` is the concatenation of the numberings `es` (each with its number of dofs): every
entity carries the dofs of all parts, part by part, dof `j` of a part renamed to `j` plus the number of dofs
of the parts before it; and this is a partition of all the dofs. -/
structure Concatenates (topo : Topology δ) (es : List (ℕ × EntityIds δ)) (ids : EntityIds δ) : Prop where
  same : SameEntities topo ids
  part : DofsPartition ids (es.map Prod.fst).sum
  block : ∀ pre x post, es = pre ++ x :: post → ∀ d e l, x.2.at? d e = some l →
    ∃ a b, ids.at? d e = some (a ++ l.map ((pre.map Prod.fst).sum + ·) ++ b) ∧
      (∀ i ∈ a, i < (pre.map Prod.fst).sum) ∧ (∀ i ∈ b, (pre.map Prod.fst).sum + x.1 ≤ i)

private theorem concatenates_of (topo : Topology δ) (es : List (ℕ × EntityIds δ)) (ids : EntityIds δ)
    (hes : ∀ x ∈ es, SameEntities topo x.2 ∧ DofsPartition x.2 x.1)
    (hsame : SameEntities topo ids)
    (hat : ∀ d e l, ids.at? d e = some l → l = shifted d e 0 es) : Concatenates topo es ids := by
  have hp := shifted_part es (fun x hx => (hes x hx).2) 0
  have hsh : ∀ d e, (ids.at? d e).getD [] = shifted d e 0 es := by
    intro d e
    cases h : ids.at? d e with
    | some l => exact hat d e l h
    | none =>
      have hno : ∀ (off : ℕ) (es' : List (ℕ × EntityIds δ)), (∀ x ∈ es', x ∈ es) → shifted d e off es' = [] := by
        intro off es' hsub
        induction es' generalizing off with
        | nil => rfl
        | cons x es' ih =>
          have hx := (hes x (hsub x (by simp))).1 d e
          have : x.2.at? d e = none := by
            rw [← Option.not_isSome_iff_eq_none, hx, ← hsame d e, h]; simp
          rw [shifted, this, ih _ (fun y hy => hsub y (by simp [hy]))]
          rfl
      rw [hno 0 es (fun x hx => hx)]; rfl
  refine ⟨hsame, (partFrom_of _ _).2 ?_, ?_⟩
  · have : (fun d e => (ids.at? d e).getD []) = fun d e => shifted d e 0 es := by
      funext d e; exact hsh d e
    rw [this]; exact hp
  · rintro pre x post rfl d e l hl
    have hsome : (ids.at? d e).isSome := by
      rw [hsame d e, ← (hes x (by simp)).1 d e, hl]; rfl
    obtain ⟨l', hl'⟩ := Option.isSome_iff_exists.1 hsome
    have hl'' := hat d e l' hl'
    rw [shifted_append, shifted, hl] at hl''
    simp only [Option.getD_some, Nat.zero_add] at hl''
    refine ⟨_, _, by rw [hl', hl'', List.append_assoc], fun i hi => ?_, fun i hi => ?_⟩
    · have := (shifted_part pre (fun y hy => (hes y (by simp [hy])).2) 0).range d e i hi
      omega
    · exact ((shifted_part post (fun y hy => (hes y (by simp [hy])).2) _).range d e i hi).1

open Classical in
/-- C24: `concatenate_entity_dofs` (`MixedElement`, `EnrichedElement`) succeeds and concatenates. -/
theorem concatenate_entity_dofs_spec (topo : Topology δ) (ht : topo.WF) (es : List (ℕ × EntityIds δ))
    (hes : ∀ x ∈ es, Topology.WF x.2 ∧ SameEntities topo x.2 ∧ DofsPartition x.2 x.1) :
    ∃ ids, concatenateEntityDofs topo es = some ids ∧ Concatenates topo es ids := by
  have hinit : ∀ d e, (EntityIds.at? (topo.map fun p => (p.1, p.2.map fun q => (q.1, ([] : List ℕ)))) d e) =
      if ∃ v, HasEntity topo d e v then some [] else none := by
    intro d e
    unfold EntityIds.at? HasEntity
    rw [Dict.get?_map topo (fun _ m => m.map fun q => (q.1, ([] : List ℕ)))]
    cases h : topo.get? d with
    | none => simp
    | some m =>
      simp only [Option.map_some, Option.bind_some]
      rw [Dict.get?_map m (fun _ _ => ([] : List ℕ))]
      cases h' : m.get? e with
      | none => simp [h']
      | some v => simp [h']
  have key : ∀ (es' : List (ℕ × EntityIds δ)) (off : ℕ) (s : EntityIds δ), (∀ x ∈ es', x ∈ es) →
      SameEntities topo s →
      ∃ off' s', es'.foldlM (fun (st : ℕ × EntityIds δ) (x : ℕ × EntityIds δ) => do
        let ids ← x.2.foldlM (fun (ids : EntityIds δ) (p : δ × Dict ℕ (List ℕ)) =>
          p.2.foldlM (fun (ids : EntityIds δ) (q : ℕ × List ℕ) =>
            addToEntity ids p.1 q.1 (q.2.map (st.1 + ·))) ids) st.2
        some (st.1 + x.1, ids)) (off, s) = some (off', s') ∧
        ∀ d e, s'.at? d e = (s.at? d e).map (· ++ shifted d e off es') := by
    intro es'
    induction es' with
    | nil => intro off s _ _; exact ⟨off, s, rfl, fun d e => by simp [shifted]⟩
    | cons x es' ih =>
      intro off s hsub hs
      have hx := hes x (hsub x (by simp))
      have hT : ∀ t ∈ triples x.2, (s.at? t.1 t.2.1).isSome := by
        intro t ht
        rw [hs, ← hx.2.1, triples_mem hx.1 ht]; rfl
      obtain ⟨s1, h1, h2⟩ := addTo_fold (off + ·) (triples x.2) s hT
      have h1' : x.2.foldlM (fun (ids : EntityIds δ) (p : δ × Dict ℕ (List ℕ)) =>
          p.2.foldlM (fun (ids : EntityIds δ) (q : ℕ × List ℕ) =>
            addToEntity ids p.1 q.1 (q.2.map (off + ·))) ids) s = some s1 := by
        rw [← h1, triples, foldlM_flatMap]
        congr 1
        funext ids p
        rw [List.foldlM_map]
      have h2' : ∀ d e, s1.at? d e = (s.at? d e).map (· ++ ((x.2.at? d e).getD []).map (off + ·)) := by
        intro d e; rw [h2, triples_at x.2 hx.1]
      obtain ⟨off', s', h3, h4⟩ := ih (off + x.1) s1 (fun y hy => hsub y (by simp [hy]))
        (fun d e => by rw [h2', Option.isSome_map]; exact hs d e)
      refine ⟨off', s', ?_, fun d e => ?_⟩
      · rw [List.foldlM_cons]
        simp only [h1', Option.bind_eq_bind, Option.bind_some]
        exact h3
      · rw [h4, h2', Option.map_map]
        congr 1
        funext l
        simp [shifted]
  have hsi : SameEntities topo (topo.map fun p => (p.1, p.2.map fun q => (q.1, ([] : List ℕ)))) := by
    intro d e
    rw [hinit]
    split_ifs with h <;> simp [h]
  obtain ⟨off', s', h1, h2⟩ := key es 0 _ (fun x hx => hx) hsi
  refine ⟨s', ?_, concatenates_of topo es s' (fun x hx => (hes x hx).2) (fun d e => ?_) (fun d e l hl => ?_)⟩
  · unfold concatenateEntityDofs
    simp only
    rw [h1]; rfl
  · rw [h2, Option.isSome_map]; exact hsi d e
  · rw [h2, hinit] at hl
    split_ifs at hl with h
    · simpa using hl.symm
    · simp at hl

/-! `_merge_entity_ids` -/

private theorem mergeStep_at (ret : EntityIds δ) (d : δ) (e : ℕ) (xs : List ℕ) (d' : δ) (e' : ℕ) :
    (mergeStep ret d e xs).at? d' e' =
      if d = d' ∧ e = e' then some ((ret.at? d e).getD [] ++ xs) else ret.at? d' e' := by
  unfold mergeStep
  simp only
  rw [EntityIds.at?_put]
  by_cases hd : d = d'
  · subst hd
    rw [if_pos rfl, Dict.get?_put]
    by_cases he : e = e'
    · subst he
      simp only [if_true, and_self]
      unfold EntityIds.at?
      cases h : ret.get? d <;> simp
    · simp only [he, if_false, and_false]
      unfold EntityIds.at?
      cases h : ret.get? d <;> simp
  · simp [hd]

private theorem mergeInit_at (ret : EntityIds δ) (d : δ) (d' : δ) (e' : ℕ) :
    EntityIds.at? (match Dict.get? ret d with
          | some (_ :: _) => ret
          | _ => Dict.put ret d []) d' e' = ret.at? d' e' := by
  split
  · rfl
  · rename_i hne
    rw [EntityIds.at?_put]
    by_cases hd : d = d'
    · subst hd
      rw [if_pos rfl]
      unfold EntityIds.at?
      cases h : ret.get? d with
      | none => rfl
      | some m =>
        cases m with
        | nil => rfl
        | cons a m => exact absurd h (hne a m)
    · rw [if_neg hd]

open Classical in
private theorem mergeFold_at (off : ℕ) (ids : EntityIds δ) (ret : EntityIds δ) (d : δ) (e : ℕ) :
    (ids.foldl (fun (ret : EntityIds δ) p =>
        let ret := match Dict.get? ret p.1 with
          | some (_ :: _) => ret
          | _ => Dict.put ret p.1 []
        p.2.foldl (fun ret q => mergeStep ret p.1 q.1 (q.2.map (· + off))) ret) ret).at? d e =
      if ∃ t ∈ triples ids, t.1 = d ∧ t.2.1 = e then
        some ((ret.at? d e).getD [] ++
          ((triples ids).filter fun t => decide (t.1 = d ∧ t.2.1 = e)).flatMap (fun t => t.2.2.map (· + off)))
      else ret.at? d e := by
  have inner : ∀ (d0 : δ) (m : Dict ℕ (List ℕ)) (ret : EntityIds δ),
      (m.foldl (fun ret q => mergeStep ret d0 q.1 (q.2.map (· + off))) ret).at? d e =
      if ∃ t ∈ m.map (fun q => (d0, q.1, q.2)), t.1 = d ∧ t.2.1 = e then
        some ((ret.at? d e).getD [] ++
          ((m.map (fun q => (d0, q.1, q.2))).filter fun t => decide (t.1 = d ∧ t.2.1 = e)).flatMap
            (fun t => t.2.2.map (· + off)))
      else ret.at? d e := by
    intro d0 m
    induction m with
    | nil => intro ret; simp
    | cons q m ih =>
      intro ret
      rw [List.foldl_cons, ih, List.map_cons, List.filter_cons, mergeStep_at]
      by_cases hc : d0 = d ∧ q.1 = e
      · obtain ⟨rfl, rfl⟩ := hc
        have hex : ∃ t ∈ (d0, q.1, q.2) :: m.map (fun q => (d0, q.1, q.2)), t.1 = d0 ∧ t.2.1 = q.1 :=
          ⟨_, List.mem_cons_self, rfl, rfl⟩
        by_cases hr : ∃ t ∈ m.map (fun q => (d0, q.1, q.2)), t.1 = d0 ∧ t.2.1 = q.1
        · rw [if_pos hr, if_pos hex]
          simp
        · rw [if_neg hr, if_pos hex]
          have : (m.map (fun q => (d0, q.1, q.2))).filter (fun t => decide (t.1 = d0 ∧ t.2.1 = q.1)) = [] := by
            rw [List.filter_eq_nil_iff]
            intro t ht h
            exact hr ⟨t, ht, by simpa using h⟩
          simp only [and_self, decide_true, if_true, List.flatMap_cons, this, List.flatMap_nil, List.append_nil]
      · rw [if_neg hc]
        have : decide ((d0, q.1, q.2).1 = d ∧ ((d0, q.1, q.2) : δ × ℕ × List ℕ).2.1 = e) = false := by simpa using hc
        simp only [this]
        have h2 : (∃ t ∈ (d0, q.1, q.2) :: m.map (fun q => (d0, q.1, q.2)), t.1 = d ∧ t.2.1 = e) ↔
            ∃ t ∈ m.map (fun q => (d0, q.1, q.2)), t.1 = d ∧ t.2.1 = e := by
          constructor
          · rintro ⟨t, ht, h⟩
            rcases List.mem_cons.1 ht with rfl | ht
            · exact absurd h hc
            · exact ⟨t, ht, h⟩
          · rintro ⟨t, ht, h⟩; exact ⟨t, List.mem_cons_of_mem _ ht, h⟩
        simp only [h2]
        rfl
  induction ids generalizing ret with
  | nil => simp [triples]
  | cons p ids ih =>
    rw [List.foldl_cons, ih]
    have ht : triples (p :: ids) = p.2.map (fun q => (p.1, q.1, q.2)) ++ triples ids := by
      simp [triples]
    simp only [inner, mergeInit_at, ht, List.filter_append, List.flatMap_append, List.mem_append]
    by_cases h1 : ∃ t ∈ p.2.map (fun q => (p.1, q.1, q.2)), t.1 = d ∧ t.2.1 = e <;>
      by_cases h2 : ∃ t ∈ triples ids, t.1 = d ∧ t.2.1 = e
    · have h3 : ∃ t, (t ∈ p.2.map (fun q => (p.1, q.1, q.2)) ∨ t ∈ triples ids) ∧ t.1 = d ∧ t.2.1 = e := by
        obtain ⟨t, ht, h⟩ := h1; exact ⟨t, .inl ht, h⟩
      rw [if_pos h2, if_pos h3, if_pos h1]
      simp
    · have h3 : ∃ t, (t ∈ p.2.map (fun q => (p.1, q.1, q.2)) ∨ t ∈ triples ids) ∧ t.1 = d ∧ t.2.1 = e := by
        obtain ⟨t, ht, h⟩ := h1; exact ⟨t, .inl ht, h⟩
      have h4 : (triples ids).filter (fun t => decide (t.1 = d ∧ t.2.1 = e)) = [] := by
        rw [List.filter_eq_nil_iff]
        intro t ht h
        exact h2 ⟨t, ht, by simpa using h⟩
      rw [if_neg h2, if_pos h3, if_pos h1, h4]
      simp
    · have h3 : ∃ t, (t ∈ p.2.map (fun q => (p.1, q.1, q.2)) ∨ t ∈ triples ids) ∧ t.1 = d ∧ t.2.1 = e := by
        obtain ⟨t, ht, h⟩ := h2; exact ⟨t, .inr ht, h⟩
      have h4 : (p.2.map (fun q => (p.1, q.1, q.2))).filter (fun t => decide (t.1 = d ∧ t.2.1 = e)) = [] := by
        rw [List.filter_eq_nil_iff]
        intro t ht h
        exact h1 ⟨t, ht, by simpa using h⟩
      rw [if_pos h2, if_pos h3, if_neg h1, h4]
      simp
    · have h3 : ¬ ∃ t, (t ∈ p.2.map (fun q => (p.1, q.1, q.2)) ∨ t ∈ triples ids) ∧ t.1 = d ∧ t.2.1 = e := by
        rintro ⟨t, ht | ht, h⟩
        · exact h1 ⟨t, ht, h⟩
        · exact h2 ⟨t, ht, h⟩
      rw [if_neg h2, if_neg h3, if_neg h1]

open Classical in
/-- C24: `_merge_entity_ids` (`NodalEnrichedElement`) concatenates as well. -/
theorem merge_entity_ids_spec (topo : Topology δ) (es : List (ℕ × EntityIds δ)) (hne : es ≠ [])
    (hes : ∀ x ∈ es, Topology.WF x.2 ∧ SameEntities topo x.2 ∧ DofsPartition x.2 x.1) :
    Concatenates topo es (mergeEntityIds es) := by
  have htr : ∀ x ∈ es, ∀ d e, (∃ t ∈ triples x.2, t.1 = d ∧ t.2.1 = e) ↔ ∃ v, HasEntity topo d e v := by
    intro x hx d e
    rw [← (hes x hx).2.1 d e]
    constructor
    · rintro ⟨t, ht, rfl, rfl⟩
      rw [triples_mem (hes x hx).1 ht]; rfl
    · intro h
      obtain ⟨l, hl⟩ := Option.isSome_iff_exists.1 h
      unfold EntityIds.at? at hl
      obtain ⟨m, hm, hl⟩ := Option.bind_eq_some_iff.1 hl
      exact ⟨(d, e, l), List.mem_flatMap.2 ⟨(d, m), Dict.mem_of_get? hm,
        List.mem_map.2 ⟨(e, l), Dict.mem_of_get? hl, rfl⟩⟩, rfl, rfl⟩
  have key : ∀ (es' : List (ℕ × EntityIds δ)) (off : ℕ) (s : EntityIds δ), (∀ x ∈ es', x ∈ es) →
      ∀ d e, (es'.foldl (fun (st : ℕ × EntityIds δ) x =>
        (st.1 + x.1,
          x.2.foldl (fun (ret : EntityIds δ) p =>
            let ret := match Dict.get? ret p.1 with
              | some (_ :: _) => ret
              | _ => Dict.put ret p.1 []
            p.2.foldl (fun ret q => mergeStep ret p.1 q.1 (q.2.map (· + st.1))) ret) st.2)) (off, s)).2.at? d e =
      if (∃ v, HasEntity topo d e v) ∧ es' ≠ [] then some ((s.at? d e).getD [] ++ shifted d e off es')
      else s.at? d e := by
    intro es'
    induction es' with
    | nil => intro off s _ d e; simp
    | cons x es' ih =>
      intro off s hsub d e
      rw [List.foldl_cons, ih _ _ (fun y hy => hsub y (by simp [hy])), mergeFold_at]
      have hx := hsub x (by simp)
      simp only [htr x hx d e]
      by_cases hv : ∃ v, HasEntity topo d e v
      · simp only [hv, true_and, ne_eq, reduceCtorEq, not_false_eq_true, if_true]
        have h0 := triples_at x.2 (hes x hx).1 d e (· + off)
        rw [h0]
        have hc : ((x.2.at? d e).getD []).map (· + off) = ((x.2.at? d e).getD []).map (off + ·) := by
          congr 1; funext i; omega
        rw [hc]
        cases es' with
        | nil => simp [shifted]
        | cons y es' => simp [shifted]
      · simp [hv]
  have hat : ∀ d e, (mergeEntityIds es).at? d e = _ := fun d e => key es 0 [] (fun x hx => hx) d e
  have h0 : ∀ d e, EntityIds.at? ([] : EntityIds δ) d e = none := fun d e => rfl
  refine concatenates_of topo es _ (fun x hx => (hes x hx).2) (fun d e => ?_) (fun d e l hl => ?_)
  · rw [hat, h0]
    by_cases hv : ∃ v, HasEntity topo d e v
    · simp [hv, hne]
    · simp [hv]
  · rw [hat, h0] at hl
    by_cases hv : ∃ v, HasEntity topo d e v
    · simp only [hv, hne, ne_eq, not_false_eq_true, and_self, if_true] at hl
      simpa using hl.symm
    · simp [hv] at hl

end

/-! ### Tables -/
section tabulate
variable {K κ : Type} [Zero K] [DecidableEq κ]

private def view (out : Dict κ (ℕ → ℕ → ℕ → K)) (k : κ) : ℕ → ℕ → ℕ → K :=
  (Dict.get? out k).getD (fun _ _ _ => 0)

/-- A table to be written at rows `r0..r0+n`, columns `c0..c0+m`. -/
private structure Item (K κ : Type) where
  r0 : ℕ
  n : ℕ
  c0 : ℕ
  m : ℕ
  table : Dict κ (ℕ → ℕ → ℕ → K)

private def writeItem (out : Dict κ (ℕ → ℕ → ℕ → K)) (it : Item K κ) : Dict κ (ℕ → ℕ → ℕ → K) :=
  it.table.foldl (fun out t =>
    Dict.put out t.1 (writeBlock ((Dict.get? out t.1).getD (fun _ _ _ => 0)) it.r0 it.n it.c0 it.m t.2)) out

private theorem writeItem_get (it : Item K κ) (hw : it.table.WF) (out : Dict κ (ℕ → ℕ → ℕ → K)) (k : κ) :
    Dict.get? (writeItem out it) k = match Dict.get? it.table k with
      | some tab => some (writeBlock (view out k) it.r0 it.n it.c0 it.m tab)
      | none => Dict.get? out k := by
  obtain ⟨r0, n, c0, m, T⟩ := it
  simp only [writeItem] at *
  induction T generalizing out with
  | nil => rfl
  | cons t T ih =>
    obtain ⟨k', tab⟩ := t
    have hw' : k' ∉ Dict.keys T ∧ Dict.WF T := List.nodup_cons.1 hw
    rw [List.foldl_cons, ih _ hw'.2, Dict.get?_cons]
    by_cases hk : k' = k
    · subst hk
      rw [if_pos rfl, Dict.get?_eq_none_iff.2 hw'.1]
      simp only [Dict.get?_put_self, view]
    · rw [if_neg hk]
      cases h : Dict.get? T k with
      | none => simp only; rw [Dict.get?_put_ne _ _ hk]
      | some tab' => simp only [view]; rw [Dict.get?_put_ne _ _ hk]

private theorem writeAll_frame (L : List (Item K κ)) (hw : ∀ it ∈ L, it.table.WF)
    (out : Dict κ (ℕ → ℕ → ℕ → K)) (k : κ) (r : ℕ) (hr : ∀ it ∈ L, ¬ (it.r0 ≤ r ∧ r < it.r0 + it.n)) :
    view (L.foldl writeItem out) k r = view out k r := by
  induction L generalizing out with
  | nil => rfl
  | cons it L ih =>
    rw [List.foldl_cons, ih (fun i hi => hw i (by simp [hi])) _ (fun i hi => hr i (by simp [hi]))]
    unfold view
    rw [writeItem_get it (hw it (by simp))]
    cases h : Dict.get? it.table k with
    | none => rfl
    | some tab =>
      have := hr it (by simp)
      funext c p
      simp only [Option.getD_some, writeBlock, view]
      rw [if_neg (by omega)]

private theorem writeAll_isSome (L : List (Item K κ)) (hw : ∀ it ∈ L, it.table.WF)
    (out : Dict κ (ℕ → ℕ → ℕ → K)) (k : κ) (h : (Dict.get? out k).isSome) :
    (Dict.get? (L.foldl writeItem out) k).isSome := by
  induction L generalizing out with
  | nil => exact h
  | cons it L ih =>
    rw [List.foldl_cons]
    refine ih (fun i hi => hw i (by simp [hi])) _ ?_
    rw [writeItem_get it (hw it (by simp))]
    split
    · rfl
    · exact h

/-- Writing disjoint row blocks. -/
private theorem writeAll_block (A B : List (Item K κ)) (it : Item K κ) (hw : ∀ i ∈ A ++ it :: B, i.table.WF)
    (hA : ∀ i ∈ A, i.r0 + i.n ≤ it.r0) (hB : ∀ i ∈ B, it.r0 + it.n ≤ i.r0) (k : κ)
    (tab : ℕ → ℕ → ℕ → K) (ht : Dict.get? it.table k = some tab) :
    ∃ arr, Dict.get? ((A ++ it :: B).foldl writeItem []) k = some arr ∧ ∀ j < it.n, ∀ p,
      (∀ c < it.m, arr (it.r0 + j) (it.c0 + c) p = tab j c p) ∧
      ∀ c, c < it.c0 ∨ it.c0 + it.m ≤ c → arr (it.r0 + j) c p = 0 := by
  rw [List.foldl_append, List.foldl_cons]
  have hwi := hw it (by simp)
  have hs : (Dict.get? (B.foldl writeItem (writeItem (A.foldl writeItem []) it)) k).isSome := by
    refine writeAll_isSome B (fun i hi => hw i (by simp [hi])) _ k ?_
    rw [writeItem_get it hwi, ht]; rfl
  obtain ⟨arr, harr⟩ := Option.isSome_iff_exists.1 hs
  refine ⟨arr, harr, fun j hj p => ?_⟩
  have h1 : arr (it.r0 + j) = view (writeItem (A.foldl writeItem []) it) k (it.r0 + j) := by
    rw [← writeAll_frame B (fun i hi => hw i (by simp [hi])) _ k (it.r0 + j)
      (fun i hi => by have := hB i hi; omega)]
    unfold view; rw [harr]; rfl
  have h2 : view (A.foldl writeItem []) k (it.r0 + j) = fun _ _ => (0 : K) := by
    rw [writeAll_frame A (fun i hi => hw i (by simp [hi])) _ k (it.r0 + j)
      (fun i hi => by have := hA i hi; omega)]
    rfl
  have h3 : ∀ c p, arr (it.r0 + j) c p =
      if it.c0 ≤ c ∧ c < it.c0 + it.m then tab j (c - it.c0) p else 0 := by
    intro c p
    rw [h1]
    unfold view
    rw [writeItem_get it hwi, ht]
    simp only [Option.getD_some, writeBlock, Nat.add_sub_cancel_left]
    by_cases hc : it.c0 ≤ c ∧ c < it.c0 + it.m
    · rw [if_pos (by omega), if_pos hc]
    · rw [if_neg (by omega), if_neg hc, h2]
  refine ⟨fun c hc => ?_, fun c hc => ?_⟩
  · rw [h3, if_pos (by omega), Nat.add_sub_cancel_left]
  · rw [h3, if_neg (by omega)]

private def posMixed : ℕ → ℕ → List (SubTable K κ) → List (Item K κ)
  | _, _, [] => []
  | r, c, x :: es => ⟨r, x.dim, c, x.comps, x.table⟩ :: posMixed (r + x.dim) (c + x.comps) es

private theorem posMixed_append (r c : ℕ) (a b : List (SubTable K κ)) :
    posMixed r c (a ++ b) =
      posMixed r c a ++ posMixed (r + (a.map (·.dim)).sum) (c + (a.map (·.comps)).sum) b := by
  induction a generalizing r c with
  | nil => simp [posMixed]
  | cons x a ih => simp [posMixed, ih, Nat.add_assoc]

private theorem posMixed_rows (r c : ℕ) (es : List (SubTable K κ)) :
    ∀ i ∈ posMixed r c es, r ≤ i.r0 ∧ i.r0 + i.n ≤ r + (es.map (·.dim)).sum ∧ ∃ x ∈ es, i.table = x.table := by
  induction es generalizing r c with
  | nil => simp [posMixed]
  | cons x es ih =>
    intro i hi
    rcases List.mem_cons.1 hi with rfl | hi
    · exact ⟨le_rfl, by simp, x, by simp, rfl⟩
    · obtain ⟨h1, h2, y, hy, h3⟩ := ih _ _ i hi
      refine ⟨by omega, by simp; omega, y, by simp [hy], h3⟩

private theorem mixed_eq (es : List (SubTable K κ)) (r c : ℕ) (out : Dict κ (ℕ → ℕ → ℕ → K)) :
    (es.foldl (fun (st : ℕ × ℕ × Dict κ (ℕ → ℕ → ℕ → K)) x =>
    (st.1 + x.dim, st.2.1 + x.comps,
      x.table.foldl (fun out t =>
        Dict.put out t.1 (writeBlock ((Dict.get? out t.1).getD (fun _ _ _ => 0)) st.1 x.dim st.2.1 x.comps t.2))
        st.2.2)) (r, c, out)).2.2 = (posMixed r c es).foldl writeItem out := by
  induction es generalizing r c out with
  | nil => rfl
  | cons x es ih => rw [List.foldl_cons, ih]; rfl

/-- C24: in `MixedElement.tabulate`, the table of an element `x` with elements `pre` before it occupies the rows
after those of `pre`, in its own component block; all other components of these rows are zero. -/
theorem mixed_tabulate_block (pre post : List (SubTable K κ)) (x : SubTable K κ)
    (hw : ∀ y ∈ pre ++ x :: post, y.table.WF) (k : κ) (tab : ℕ → ℕ → ℕ → K)
    (ht : Dict.get? x.table k = some tab) :
    ∃ arr, Dict.get? (mixedTabulate (pre ++ x :: post)) k = some arr ∧ ∀ j < x.dim, ∀ p,
      (∀ c < x.comps, arr ((pre.map (·.dim)).sum + j) ((pre.map (·.comps)).sum + c) p = tab j c p) ∧
      ∀ c, c < (pre.map (·.comps)).sum ∨ (pre.map (·.comps)).sum + x.comps ≤ c →
        arr ((pre.map (·.dim)).sum + j) c p = 0 := by
  have h := writeAll_block (posMixed 0 0 pre)
    (posMixed ((pre.map (·.dim)).sum + x.dim) ((pre.map (·.comps)).sum + x.comps) post)
    ⟨(pre.map (·.dim)).sum, x.dim, (pre.map (·.comps)).sum, x.comps, x.table⟩ ?_ ?_ ?_ k tab ht
  · have he : mixedTabulate (pre ++ x :: post) = (posMixed 0 0 (pre ++ x :: post)).foldl writeItem [] :=
      mixed_eq _ 0 0 []
    rw [he, posMixed_append, posMixed]
    simp only [Nat.zero_add]
    exact h
  · intro i hi
    rcases List.mem_append.1 hi with hi | hi
    · obtain ⟨_, _, y, hy, h3⟩ := posMixed_rows _ _ _ i hi
      rw [h3]; exact hw y (by simp [hy])
    · rcases List.mem_cons.1 hi with rfl | hi
      · exact hw x (by simp)
      · obtain ⟨_, _, y, hy, h3⟩ := posMixed_rows _ _ _ i hi
        rw [h3]; exact hw y (by simp [hy])
  · intro i hi
    have := (posMixed_rows _ _ _ i hi).2.1
    simpa using this
  · intro i hi
    exact (posMixed_rows _ _ _ i hi).1

private def posEnr (comps : ℕ) : ℕ → List (SubTable K κ) → List (Item K κ)
  | _, [] => []
  | r, x :: es => ⟨r, x.dim, 0, comps, x.table⟩ :: posEnr comps (r + x.dim) es

private theorem posEnr_append (comps r : ℕ) (a b : List (SubTable K κ)) :
    posEnr comps r (a ++ b) = posEnr comps r a ++ posEnr comps (r + (a.map (·.dim)).sum) b := by
  induction a generalizing r with
  | nil => simp [posEnr]
  | cons x a ih => simp [posEnr, ih, Nat.add_assoc]

private theorem posEnr_rows (comps r : ℕ) (es : List (SubTable K κ)) :
    ∀ i ∈ posEnr comps r es, r ≤ i.r0 ∧ i.r0 + i.n ≤ r + (es.map (·.dim)).sum ∧ ∃ x ∈ es, i.table = x.table := by
  induction es generalizing r with
  | nil => simp [posEnr]
  | cons x es ih =>
    intro i hi
    rcases List.mem_cons.1 hi with rfl | hi
    · exact ⟨le_rfl, by simp, x, by simp, rfl⟩
    · obtain ⟨h1, h2, y, hy, h3⟩ := ih _ i hi
      refine ⟨by omega, by simp; omega, y, by simp [hy], h3⟩

private theorem enr_eq (comps : ℕ) (es : List (SubTable K κ)) (r : ℕ) (out : Dict κ (ℕ → ℕ → ℕ → K)) :
    (es.foldl (fun (st : ℕ × Dict κ (ℕ → ℕ → ℕ → K)) x =>
    (st.1 + x.dim,
      x.table.foldl (fun out t =>
        Dict.put out t.1 (writeBlock ((Dict.get? out t.1).getD (fun _ _ _ => 0)) st.1 x.dim 0 comps t.2))
        st.2)) (r, out)).2 = (posEnr comps r es).foldl writeItem out := by
  induction es generalizing r out with
  | nil => rfl
  | cons x es ih => rw [List.foldl_cons, ih]; rfl

/-- C24: in `EnrichedElement.tabulate`, the table of `x` occupies the rows after those of the elements before it. -/
theorem enriched_tabulate_block (comps : ℕ) (pre post : List (SubTable K κ)) (x : SubTable K κ)
    (hw : ∀ y ∈ pre ++ x :: post, y.table.WF) (k : κ) (tab : ℕ → ℕ → ℕ → K)
    (ht : Dict.get? x.table k = some tab) :
    ∃ arr, Dict.get? (enrichedTabulate comps (pre ++ x :: post)) k = some arr ∧ ∀ j < x.dim, ∀ p,
      ∀ c < comps, arr ((pre.map (·.dim)).sum + j) c p = tab j c p := by
  obtain ⟨arr, h1, h2⟩ := writeAll_block (posEnr comps 0 pre)
    (posEnr comps ((pre.map (·.dim)).sum + x.dim) post)
    ⟨(pre.map (·.dim)).sum, x.dim, 0, comps, x.table⟩ (by
      intro i hi
      rcases List.mem_append.1 hi with hi | hi
      · obtain ⟨_, _, y, hy, h3⟩ := posEnr_rows _ _ _ i hi
        rw [h3]; exact hw y (by simp [hy])
      · rcases List.mem_cons.1 hi with rfl | hi
        · exact hw x (by simp)
        · obtain ⟨_, _, y, hy, h3⟩ := posEnr_rows _ _ _ i hi
          rw [h3]; exact hw y (by simp [hy])) (by
      intro i hi
      have := (posEnr_rows _ _ _ i hi).2.1
      simpa using this) (by
      intro i hi
      exact (posEnr_rows _ _ _ i hi).1) k tab ht
  refine ⟨arr, ?_, fun j hj p c hc => by simpa using (h2 j hj p).1 c hc⟩
  have he : enrichedTabulate comps (pre ++ x :: post) = (posEnr comps 0 (pre ++ x :: post)).foldl writeItem [] :=
    enr_eq comps _ 0 []
  rw [he, posEnr_append, posEnr]
  simp only [Nat.zero_add]
  exact h1

/-- C24: the merged coefficients of `NodalEnrichedElement`: member `j` of a part is row `offset + j`, its
coefficients on expansion functions beyond the part's own are zero. -/
theorem merge_coeffs_block {C : Type} (pre post : List (ℕ × ℕ × (ℕ → C → ℕ → K))) (x : ℕ × ℕ × (ℕ → C → ℕ → K))
    (j : ℕ) (hj : j < x.1) (c : C) (k : ℕ) :
    mergeCoeffs (pre ++ x :: post) ((pre.map Prod.fst).sum + j) c k = if k < x.2.1 then x.2.2 j c k else 0 := by
  have hoff : ∀ (L : List (ℕ × ℕ × (ℕ → C → ℕ → K))) (st : ℕ × (ℕ → C → ℕ → K)),
      (L.foldl (fun (st : ℕ × (ℕ → C → ℕ → K)) x =>
        (st.1 + x.1, fun r c k =>
          if st.1 ≤ r ∧ r < st.1 + x.1 ∧ k < x.2.1 then x.2.2 (r - st.1) c k else st.2 r c k)) st).1 =
        st.1 + (L.map Prod.fst).sum ∧
      ∀ r, (r < st.1 ∨ st.1 + (L.map Prod.fst).sum ≤ r) →
        (L.foldl (fun (st : ℕ × (ℕ → C → ℕ → K)) x =>
        (st.1 + x.1, fun r c k =>
          if st.1 ≤ r ∧ r < st.1 + x.1 ∧ k < x.2.1 then x.2.2 (r - st.1) c k else st.2 r c k)) st).2 r =
        st.2 r := by
    intro L
    induction L with
    | nil => intro st; simp
    | cons y L ih =>
      intro st
      rw [List.foldl_cons]
      obtain ⟨h1, h2⟩ := ih (st.1 + y.1, fun r c k =>
          if st.1 ≤ r ∧ r < st.1 + y.1 ∧ k < y.2.1 then y.2.2 (r - st.1) c k else st.2 r c k)
      refine ⟨by rw [h1]; simp [Nat.add_assoc], fun r hr => ?_⟩
      simp only [List.map_cons, List.sum_cons] at hr
      rw [h2 r (by simp only; omega)]
      funext c k
      simp only
      rw [if_neg (by omega)]
  unfold mergeCoeffs
  rw [List.foldl_append, List.foldl_cons]
  set st := pre.foldl (fun (st : ℕ × (ℕ → C → ℕ → K)) x =>
    (st.1 + x.1, fun r c k =>
      if st.1 ≤ r ∧ r < st.1 + x.1 ∧ k < x.2.1 then x.2.2 (r - st.1) c k else st.2 r c k))
    (0, fun _ _ _ => (0 : K)) with hst
  obtain ⟨p1, p2⟩ := hoff pre (0, fun _ _ _ => (0 : K))
  rw [← hst] at p1 p2
  simp only [Nat.zero_add] at p1 p2
  rw [(hoff post _).2 _ (by simp only [p1]; omega)]
  simp only [p1, Nat.add_sub_cancel_left]
  by_cases hk : k < x.2.1
  · rw [if_pos (by omega), if_pos hk]
  · rw [if_neg (by omega), if_neg hk, p2 _ (by omega)]

end tabulate

/-! Non-vacuity: the P2 interval numbering and a P0 numbering satisfy the hypotheses; their concatenation. -/
section example_
private def exP2 : EntityIds ℕ := [(0, [(0, [0]), (1, [1])]), (1, [(0, [2])])]
private def exP0 : EntityIds ℕ := [(0, [(0, []), (1, [])]), (1, [(0, [0])])]
private def exTopo : Topology ℕ := [(0, [(0, [0]), (1, [1])]), (1, [(0, [0, 1])])]

example : concatenateEntityDofs exTopo [(3, exP2), (1, exP0)] =
    some [(0, [(0, [0]), (1, [1])]), (1, [(0, [2, 3])])] := by decide
example : mergeEntityIds [(3, exP2), (1, exP0)] = [(0, [(0, [0]), (1, [1])]), (1, [(0, [2, 3])])] := by decide

private theorem exAt (ids : EntityIds ℕ) (hk : Dict.keys ids = [0, 1]) (d e : ℕ) (hd : 2 ≤ d) : ids.at? d e = none := by
  unfold EntityIds.at?
  rw [Dict.get?_eq_none_iff.2 (by rw [hk]; simp; omega)]; rfl

example : Topology.WF exP2 ∧ SameEntities exTopo exP2 ∧ DofsPartition exP2 3 := by
  refine ⟨by unfold Topology.WF Dict.WF exP2; decide, ?_, ?_⟩
  · intro d e
    unfold EntityIds.at? HasEntity exP2 exTopo
    rcases d with _ | _ | d
    · rcases e with _ | _ | e <;> simp [Dict.get?]
    · rcases e with _ | e <;> simp [Dict.get?]
    · simp [Dict.get?]
  · rw [partFrom_of]
    have hf : ∀ d e, (exP2.at? d e).getD [] =
        if d = 0 ∧ e = 0 then [0] else if d = 0 ∧ e = 1 then [1] else if d = 1 ∧ e = 0 then [2] else [] := by
      intro d e
      unfold EntityIds.at? exP2
      rcases d with _ | _ | d
      · rcases e with _ | _ | e <;> simp [Dict.get?]
      · rcases e with _ | e <;> simp [Dict.get?]
      · simp [Dict.get?]
    simp only [hf]
    refine ⟨fun d e => by split_ifs <;> simp, fun d e i hi => ?_, fun i _ hi => ?_, fun i d e d' e' hi hi' => ?_⟩
    · split_ifs at hi <;> simp at hi <;> omega
    · interval_cases i
      · exact ⟨0, 0, by simp⟩
      · exact ⟨0, 1, by simp⟩
      · exact ⟨1, 0, by simp⟩
    · split_ifs at hi hi' <;> simp at hi hi' <;> omega
end example_
end FIAT
