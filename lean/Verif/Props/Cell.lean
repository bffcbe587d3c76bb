/-
C05 (sub-entities and connectivity) and C06 (closure dofs).
-/
import Verif.Lemmas.Cell

namespace FIAT
variable {δ : Type} [LinearOrder δ]

/-- Specification: entity number `e` of dimension `d` exists and has vertex tuple `v`. -/
def HasEntity (t : Topology δ) (d : δ) (e : ℕ) (v : List ℕ) : Prop :=
  ∃ es, t.get? d = some es ∧ es.get? e = some v

theorem HasEntity.mem {t : Topology δ} {d : δ} {e : ℕ} {v : List ℕ} (h : HasEntity t d e v) :
    ∃ es, (d, es) ∈ t ∧ (e, v) ∈ es := by
  obtain ⟨es, h1, h2⟩ := h
  exact ⟨es, Dict.mem_of_get? h1, Dict.mem_of_get? h2⟩

theorem hasEntity_iff {t : Topology δ} (ht : t.WF) {d : δ} {e : ℕ} {v : List ℕ} :
    HasEntity t d e v ↔ ∃ es, (d, es) ∈ t ∧ (e, v) ∈ es := by
  refine ⟨HasEntity.mem, ?_⟩
  rintro ⟨es, h1, h2⟩
  exact ⟨es, Dict.get?_of_mem ht.1 h1, Dict.get?_of_mem (ht.2 _ h1) h2⟩

/-- C05: `sub_entities` of an entity with vertices `v`: exactly the entities whose vertices all
belong to `v`. -/
theorem subEntitiesOf_mem {t : Topology δ} (ht : t.WF) (v : List ℕ) (d' : δ) (e' : ℕ) :
    toLex (d', e') ∈ subEntitiesOf t v ↔ ∃ v', HasEntity t d' e' v' ∧ ∀ x ∈ v', x ∈ v := by
  simp only [subEntitiesOf, mem_pySorted, List.mem_flatMap, List.mem_map, List.mem_filter,
    List.all_eq_true, List.contains_iff_mem]
  constructor
  · rintro ⟨⟨d, es⟩, hp, ⟨e, vs⟩, ⟨hq, hsub⟩, heq⟩
    have := toLex.injective heq
    simp only [Prod.mk.injEq] at this
    obtain ⟨rfl, rfl⟩ := this
    exact ⟨vs, (hasEntity_iff ht).2 ⟨es, hp, hq⟩, hsub⟩
  · rintro ⟨v', h, hsub⟩
    obtain ⟨es, h1, h2⟩ := h.mem
    exact ⟨(d', es), h1, (e', v'), ⟨h2, hsub⟩, rfl⟩

/-- C05: sorted, each once. -/
theorem subEntitiesOf_sorted {t : Topology δ} (ht : t.WF) (v : List ℕ) :
    (subEntitiesOf t v).Pairwise (· < ·) := by
  apply pySorted_pairwise_lt
  rw [List.nodup_flatMap]
  constructor
  · intro p hp
    have := ht.2 p hp
    refine List.Nodup.map_on ?_ (List.Nodup.filter _ (List.Nodup.of_map _ this))
    intro x hx y hy hxy
    have e1 : x.1 = y.1 := by simpa using hxy
    exact List.inj_on_of_nodup_map this (List.mem_filter.1 hx).1 (List.mem_filter.1 hy).1 e1
  · have h := ht.1
    unfold Dict.WF Dict.keys at h
    rw [List.Nodup, List.pairwise_map] at h
    refine h.imp ?_
    intro a b hab x hx hy
    simp only [List.mem_map] at hx hy
    obtain ⟨q, _, rfl⟩ := hx
    obtain ⟨r, _, hr⟩ := hy
    have : (b.1, r.1) = (a.1, q.1) := toLex.injective hr
    simp only [Prod.mk.injEq] at this
    exact hab this.1.symm

/-- C05: the stored value of `cell.sub_entities[d][e]`. -/
theorem subEntities_get {t : Topology δ} {d : δ} {e : ℕ} {v : List ℕ} (h : HasEntity t d e v) :
    ((subEntities t).get? d).bind (fun m => m.get? e) = some (subEntitiesOf t v) := by
  obtain ⟨es, h1, h2⟩ := h
  have := Dict.get?_map t (fun _ es => es.map fun q => (q.1, subEntitiesOf t q.2)) d
  unfold subEntities
  rw [this, h1]
  simp only [Option.map_some, Option.bind_some]
  have := Dict.get?_map es (fun _ v => subEntitiesOf t v) e
  rw [this, h2]; rfl

/-- C05: `cell.sub_entities[d][e]` exists, is strictly sorted, contains `(d, e)` itself and contains
exactly the entities whose vertices all belong to `(d, e)`. -/
theorem sub_entities_spec {t : Topology δ} (ht : t.WF) {d : δ} {e : ℕ} {v : List ℕ}
    (h : HasEntity t d e v) :
    ∃ l, ((subEntities t).get? d).bind (fun m => m.get? e) = some l ∧
      l.Pairwise (· < ·) ∧ toLex (d, e) ∈ l ∧
      ∀ d' e', toLex (d', e') ∈ l ↔ ∃ v', HasEntity t d' e' v' ∧ ∀ x ∈ v', x ∈ v :=
  ⟨_, subEntities_get h, subEntitiesOf_sorted ht v,
    (subEntitiesOf_mem ht v d e).2 ⟨v, h, fun _ hx => hx⟩, fun d' e' => subEntitiesOf_mem ht v d' e'⟩

/-- The list of numbers of the `d1`-dimensional sub-entities, in increasing order. -/
private def subNumbers (t : Topology ℕ) (v : List ℕ) (d1 : ℕ) : List ℕ :=
  ((subEntitiesOf t v).filter fun x => (ofLex x).1 == d1).map fun x => (ofLex x).2

private theorem subNumbers_mem {t : Topology ℕ} (ht : t.WF) (v : List ℕ) (d1 e' : ℕ) :
    e' ∈ subNumbers t v d1 ↔ ∃ v', HasEntity t d1 e' v' ∧ ∀ x ∈ v', x ∈ v := by
  rw [← subEntitiesOf_mem ht]
  simp only [subNumbers, List.mem_map, List.mem_filter]
  constructor
  · rintro ⟨x, ⟨h1, h2⟩, rfl⟩
    simp only [beq_iff_eq] at h2
    rw [← h2]; exact h1
  · intro h
    exact ⟨_, ⟨h, by simp⟩, rfl⟩

private theorem subNumbers_sorted {t : Topology ℕ} (ht : t.WF) (v : List ℕ) (d1 : ℕ) :
    (subNumbers t v d1).Pairwise (· < ·) := by
  unfold subNumbers
  rw [List.pairwise_map]
  have h := (subEntitiesOf_sorted ht v).filter (fun x => (ofLex x).1 == d1)
  refine List.Pairwise.imp_of_mem ?_ h
  intro a b ha hb hab
  have ha' := (List.mem_filter.1 ha).2
  have hb' := (List.mem_filter.1 hb).2
  simp only [beq_iff_eq] at ha' hb'
  rcases Prod.Lex.lt_iff.1 hab with h | h
  · omega
  · exact h.2

/-- The appends performed by the connectivity loop, in order. -/
private def connEvents (t : Topology ℕ) : List ((ℕ × ℕ) × List ℕ) :=
  (subEntities t).flatMap fun p =>
    (sortedItems p.2).flatMap fun q => (List.range (p.1 + 1)).map fun dim1 =>
      ((p.1, dim1), (q.2.filter fun x => (ofLex x).1 == dim1).map fun x => (ofLex x).2)

private theorem sortedItems_map {κ α β : Type*} [LinearOrder κ] (d : Dict κ α) (f : κ × α → β) :
    sortedItems (d.map fun q => (q.1, f q)) = (sortedItems d).map fun q => (q.1, f q) := by
  unfold sortedItems
  exact (List.map_insertionSort (r := fun a b : κ × α => a.1 ≤ b.1) (s := fun a b : κ × β => a.1 ≤ b.1)
    (fun q : κ × α => (q.1, f q)) d (fun _ _ _ _ => Iff.rfl)).symm

private theorem connectivity_fold {t : Topology ℕ} (ht : t.WF) {d0 d1 : ℕ} (h01 : d1 ≤ d0)
    {es : Dict ℕ (List ℕ)} (hes : t.get? d0 = some es) :
    connectivity t = (connEvents t).foldl (fun c p => Dict.appendAt c p.1 [p.2]) [] ∧
    ((connEvents t).filter fun p => p.1 = (d0, d1)).map Prod.snd
      = (sortedItems es).map fun p => subNumbers t p.2 d1 := by
  constructor
  · rw [connEvents, connectivity, List.foldl_flatMap]
    congr 1
    funext c p
    rw [List.foldl_flatMap]
    congr 1
    funext c q
    rw [List.foldl_map]
  · have key : ∀ p : ℕ × Dict ℕ (List (ℕ ×ₗ ℕ)),
        (((sortedItems p.2).flatMap fun q => (List.range (p.1 + 1)).map fun dim1 =>
          ((p.1, dim1), (q.2.filter fun x => (ofLex x).1 == dim1).map fun x => (ofLex x).2)).filter
            fun p => p.1 = (d0, d1)).map Prod.snd
        = if p.1 = d0 then (sortedItems p.2).map fun q =>
            (q.2.filter fun x => (ofLex x).1 == d1).map fun x => (ofLex x).2 else [] := by
      intro p
      rw [List.filter_flatMap, List.map_flatMap]
      split_ifs with h
      · rw [List.map_eq_flatMap]
        congr 1
        funext q
        rw [List.filter_map, List.map_map, h]
        have e : ((fun p : (ℕ × ℕ) × List ℕ => decide (p.1 = (d0, d1))) ∘ fun dim1 => ((d0, dim1),
              (q.2.filter fun x => (ofLex x).1 == dim1).map fun x => (ofLex x).2))
              = fun dim1 => decide (dim1 = d1) := by
            funext dim1; simp
        rw [e, List.filter_eq, List.count_eq_one_of_mem List.nodup_range (by simp; omega)]
        rfl
      · rw [List.flatMap_eq_nil_iff]
        intro q hq
        simp [List.filter_map, h]
    rw [connEvents, List.filter_flatMap, List.map_flatMap]
    simp only [key]
    have hwf : Dict.WF (subEntities t) := by
      unfold subEntities Dict.WF
      rw [Dict.keys_map t (fun _ es => es.map fun q => (q.1, subEntitiesOf t q.2))]
      exact ht.1
    have hget : (subEntities t).get? d0 = some (es.map fun q => (q.1, subEntitiesOf t q.2)) := by
      have := Dict.get?_map t (fun _ es => es.map fun q => (q.1, subEntitiesOf t q.2)) d0
      unfold subEntities
      rw [this, hes]; rfl
    rw [filter_flatMap_key (subEntities t) hwf d0 _ hget (fun _ m => (sortedItems m).map fun q =>
            (q.2.filter fun x => (ofLex x).1 == d1).map fun x => (ofLex x).2)]
    rw [sortedItems_map es (fun q => subEntitiesOf t q.2), List.map_map]
    rfl

/-- C05: `get_connectivity()[(d0, d1)]` for `d1 ≤ d0` lists, for the entities of dimension `d0` in
increasing order of their numbers, the increasing tuple of numbers of the `d1`-dimensional
sub-entities. -/
theorem connectivity_spec {t : Topology ℕ} (ht : t.WF) {d0 d1 : ℕ} (h01 : d1 ≤ d0)
    {es : Dict ℕ (List ℕ)} (hes : t.get? d0 = some es) (hne : es ≠ []) :
    ∃ L, (connectivity t).get? (d0, d1) = some L ∧
      List.Forall₂ (fun (p : ℕ × List ℕ) (l : List ℕ) =>
        l.Pairwise (· < ·) ∧
        ∀ e', e' ∈ l ↔ ∃ v', HasEntity t d1 e' v' ∧ ∀ x ∈ v', x ∈ p.2) (sortedItems es) L := by
  obtain ⟨hconn, hfil⟩ := connectivity_fold ht h01 hes
  refine ⟨(sortedItems es).map fun p => subNumbers t p.2 d1, ?_, ?_⟩
  · have h1 := getD_foldl_appendAt (connEvents t) [] (d0, d1)
    rw [← hconn, hfil] at h1
    rcases h : (connectivity t).get? (d0, d1) with _ | L
    · exfalso
      rw [h] at h1
      simp only [Option.getD_none, Dict.get?_nil, List.nil_append] at h1
      have h2 : sortedItems es = [] := List.map_eq_nil_iff.1 h1.symm
      have := (sortedItems_perm es).length_eq
      rw [h2] at this
      exact hne (List.length_eq_zero_iff.1 this.symm)
    · rw [h] at h1
      simpa using h1
  · rw [List.forall₂_map_right_iff]
    exact List.forall₂_same.2 fun p _ => ⟨subNumbers_sorted ht _ _, fun e' => subNumbers_mem ht _ _ _⟩

/-! ### C06 -/

/-- The cell's entities only contain entities of no larger dimension. -/
def DimMonotone (t : Topology δ) : Prop :=
  ∀ d e v d' e' v', HasEntity t d e v → HasEntity t d' e' v' → (∀ x ∈ v', x ∈ v) → d' ≤ d

/-- Every entity of the cell has an entry in the dof numbering. -/
def Covers (t : Topology δ) (ids : EntityIds δ) : Prop :=
  ∀ d e v, HasEntity t d e v → ∃ l, ids.at? d e = some l

/-- Membership of dof `n` in the closure of an entity with vertices `v`. -/
def InClosure (t : Topology δ) (ids : EntityIds δ) (v : List ℕ) (n : ℕ) : Prop :=
  ∃ d' e' v' l', HasEntity t d' e' v' ∧ (∀ x ∈ v', x ∈ v) ∧ ids.at? d' e' = some l' ∧ n ∈ l'

private theorem closureIds_some (ids : EntityIds δ) (l : List (δ ×ₗ ℕ)) (d₀ : δ)
    (h : ∀ s ∈ l, ∃ x, ids.at? (ofLex s).1 (ofLex s).2 = some x) :
    closureIds ids d₀ l = some ((l.getLast?.map fun s => (ofLex s).1).getD d₀,
      l.flatMap fun s => (ids.at? (ofLex s).1 (ofLex s).2).getD []) := by
  induction l generalizing d₀ with
  | nil => rfl
  | cons s rest ih =>
    obtain ⟨x, hx⟩ := h s (by simp)
    have := ih (ofLex s).1 (fun s hs => h s (by simp [hs]))
    simp only [closureIds, hx, this, Option.bind_eq_bind, Option.bind_some, Option.pure_def,
      List.flatMap_cons, Option.getD_some, Option.some.injEq, Prod.mk.injEq, and_true]
    cases rest with
    | nil => simp
    | cons r rest =>
      rw [List.getLast?_cons_cons]
      simp [List.getLast?_cons]

private theorem last_dim {t : Topology δ} (ht : t.WF) (hm : DimMonotone t) {d : δ} {e : ℕ}
    {v : List ℕ} (h : HasEntity t d e v) :
    ((subEntitiesOf t v).getLast?.map fun s => (ofLex s).1) = some d := by
  have hmem : toLex (d, e) ∈ subEntitiesOf t v := (subEntitiesOf_mem ht v d e).2 ⟨v, h, fun _ hx => hx⟩
  have hs := subEntitiesOf_sorted ht v
  rcases hl : (subEntitiesOf t v).getLast? with _ | s
  · rw [List.getLast?_eq_none_iff] at hl
    rw [hl] at hmem; simp at hmem
  · simp only [Option.map_some, Option.some.injEq]
    obtain ⟨ys, hys⟩ := List.getLast?_eq_some_iff.1 hl
    have hsmem : s ∈ subEntitiesOf t v := by rw [hys]; simp
    have hle : toLex (d, e) ≤ s := by
      rw [hys] at hmem hs
      rcases List.mem_append.1 hmem with h | h
      · exact ((List.pairwise_append.1 hs).2.2 _ h s (by simp)).le
      · simp at h; rw [h]
    obtain ⟨v', hv', hsub⟩ := (subEntitiesOf_mem ht v (ofLex s).1 (ofLex s).2).1 hsmem
    have h1 := hm _ _ _ _ _ _ h hv' hsub
    have h2 : d ≤ (ofLex s).1 := by
      rcases Prod.Lex.le_iff.1 hle with h | h
      · exact le_of_lt h
      · exact le_of_eq h.1
    exact le_antisymm h1 h2

/-- The closure list stored for an entity with vertices `v`. -/
private def closureList (t : Topology δ) (ids : EntityIds δ) (v : List ℕ) : List ℕ :=
  pySorted ((subEntitiesOf t v).flatMap fun s => (ids.at? (ofLex s).1 (ofLex s).2).getD [])

private theorem closure_inner {t : Topology δ} (ht : t.WF) (hm : DimMonotone t) {ids : EntityIds δ}
    (hc : Covers t ids) (d : δ) (es : Dict ℕ (List ℕ)) (hes : (d, es) ∈ t)
    (acc : EntityIds δ) (inner : Dict ℕ (List ℕ)) (ha : acc.get? d = some inner)
    (rem : Dict ℕ (List ℕ)) (hrem : ∀ q ∈ rem, q ∈ es) :
    ∃ acc', (rem.map fun q => (q.1, subEntitiesOf t q.2)).foldlM (fun acc q => do
        let (d, l) ← closureIds ids d q.2
        let inner ← acc.get? d
        return acc.put d (inner.put q.1 (pySorted l))) acc = some acc' ∧
      acc'.get? d = some (rem.foldl (fun m q => m.put q.1 (closureList t ids q.2)) inner) ∧
      ∀ d', d' ≠ d → acc'.get? d' = acc.get? d' := by
  induction rem generalizing acc inner with
  | nil => exact ⟨acc, rfl, ha, fun _ _ => rfl⟩
  | cons q rem ih =>
    have hq : HasEntity t d q.1 q.2 := (hasEntity_iff ht).2 ⟨es, hes, hrem q (by simp)⟩
    have hcl := closureIds_some ids (subEntitiesOf t q.2) d (by
      intro s hs
      obtain ⟨v', hv', _⟩ := (subEntitiesOf_mem ht q.2 (ofLex s).1 (ofLex s).2).1 hs
      exact hc _ _ _ hv')
    rw [last_dim ht hm hq] at hcl
    obtain ⟨acc', h1, h2, h3⟩ := ih (acc.put d (inner.put q.1 (closureList t ids q.2)))
      (inner.put q.1 (closureList t ids q.2)) (by simp) (fun q hq => hrem q (by simp [hq]))
    refine ⟨acc', ?_, h2, fun d' hd' => ?_⟩
    · rw [List.map_cons, List.foldlM_cons]
      simp only [hcl, ha, Option.bind_eq_bind, Option.bind_some, Option.pure_def, Option.getD_some]
      exact h1
    · rw [h3 d' hd', Dict.get?_put_ne _ _ (Ne.symm hd')]

private theorem foldl_set_get {es : Dict ℕ (List ℕ)} (hes : es.WF) (f : List ℕ → List ℕ)
    (m : Dict ℕ (List ℕ)) (e : ℕ) :
    (es.foldl (fun m q => m.put q.1 (f q.2)) m).get? e =
      ((Dict.get? es e).map f).or (m.get? e) := by
  induction es generalizing m with
  | nil => rfl
  | cons q es ih =>
    obtain ⟨k, v⟩ := q
    have hes' := hes
    simp only [Dict.WF, Dict.keys, List.map_cons, List.nodup_cons] at hes
    rw [List.foldl_cons, ih hes.2, Dict.get?_cons, Dict.get?_put]
    split_ifs with h
    · subst h
      have : Dict.get? es k = none := Dict.get?_eq_none_iff.2 hes.1
      simp [this]
    · rfl

private theorem closure_outer {t : Topology δ} (ht : t.WF) (hm : DimMonotone t) {ids : EntityIds δ}
    (hc : Covers t ids) (rem : Topology δ) (hrem : ∀ p ∈ rem, p ∈ t) (hwf : Dict.WF rem)
    (acc : EntityIds δ) :
    ∃ cl, (rem.map fun p => (p.1, p.2.map fun q => (q.1, subEntitiesOf t q.2))).foldlM
        (fun acc p => p.2.foldlM (fun acc q => do
          let (d, l) ← closureIds ids p.1 q.2
          let inner ← acc.get? d
          return acc.put d (inner.put q.1 (pySorted l))) (acc.put p.1 [])) acc = some cl ∧
      (∀ d es, (d, es) ∈ rem → cl.get? d =
        some (es.foldl (fun m q => Dict.put m q.1 (closureList t ids q.2)) ([] : Dict ℕ (List ℕ)))) ∧
      ∀ d, d ∉ Dict.keys rem → cl.get? d = acc.get? d := by
  induction rem generalizing acc with
  | nil => exact ⟨acc, rfl, by simp, fun _ _ => rfl⟩
  | cons p rem ih =>
    obtain ⟨d, es⟩ := p
    have hwf' := hwf
    simp only [Dict.WF, Dict.keys, List.map_cons, List.nodup_cons] at hwf
    obtain ⟨acc', h1, h2, h3⟩ := closure_inner ht hm hc d es (hrem _ (by simp)) (acc.put d []) []
      (by simp) es (fun _ h => h)
    obtain ⟨cl, g1, g2, g3⟩ := ih (fun p hp => hrem p (by simp [hp])) hwf.2 acc'
    refine ⟨cl, ?_, ?_, ?_⟩
    · rw [List.map_cons, List.foldlM_cons, h1]; exact g1
    · intro d' es' hmem
      rcases List.mem_cons.1 hmem with h | h
      · simp only [Prod.mk.injEq] at h
        obtain ⟨rfl, rfl⟩ := h
        rw [g3 _ hwf.1, h2]
      · exact g2 _ _ h
    · intro d' hd'
      simp only [Dict.keys, List.map_cons, List.mem_cons, not_or] at hd'
      rw [g3 _ hd'.2, h3 _ hd'.1, Dict.get?_put_ne _ _ (Ne.symm hd'.1)]

/-- C06: on every cell whose entities only contain entities of no larger dimension, and for every
dof numbering of its entities, the closure computation succeeds, and the closure of each entity is a
sorted list consisting of exactly the dofs of the contained entities. -/
theorem entity_closure_spec {t : Topology δ} (ht : t.WF) (hm : DimMonotone t) {ids : EntityIds δ}
    (hc : Covers t ids) :
    ∃ cl, entityClosureIds t ids = some cl ∧
      ∀ d e v, HasEntity t d e v → ∃ l, cl.at? d e = some l ∧
        l.Pairwise (· ≤ ·) ∧ ∀ n, n ∈ l ↔ InClosure t ids v n := by
  obtain ⟨cl, h1, h2, -⟩ := closure_outer ht hm hc t (fun _ h => h) ht.1 []
  refine ⟨cl, h1, ?_⟩
  rintro d e v ⟨es, hes, hv⟩
  have hmem := Dict.mem_of_get? hes
  refine ⟨closureList t ids v, ?_, pySorted_pairwise _, ?_⟩
  · unfold EntityIds.at?
    rw [h2 d es hmem, Option.bind_some, foldl_set_get (ht.2 _ hmem), hv]
    rfl
  · intro n
    simp only [closureList, mem_pySorted, List.mem_flatMap]
    constructor
    · rintro ⟨s, hs, hn⟩
      obtain ⟨v', hv', hsub⟩ := (subEntitiesOf_mem ht v (ofLex s).1 (ofLex s).2).1 hs
      obtain ⟨l', hl'⟩ := hc _ _ _ hv'
      rw [hl'] at hn
      exact ⟨_, _, v', l', hv', hsub, hl', hn⟩
    · rintro ⟨d', e', v', l', hv', hsub, hl', hn⟩
      exact ⟨toLex (d', e'), (subEntitiesOf_mem ht v d' e').2 ⟨v', hv', hsub⟩, by
        show n ∈ (ids.at? d' e').getD []
        rw [hl']; exact hn⟩

/-- C06: if no dof is listed twice, the closure lists have no repetition. -/
theorem entity_closure_nodup {t : Topology δ} (ht : t.WF) (hm : DimMonotone t) {ids : EntityIds δ}
    (hc : Covers t ids) (hnd : ∀ d e l, ids.at? d e = some l → l.Nodup)
    (hdis : ∀ d e l d' e' l', ids.at? d e = some l → ids.at? d' e' = some l' →
      (d, e) ≠ (d', e') → ∀ n ∈ l, n ∉ l')
    {cl : EntityIds δ} (hcl : entityClosureIds t ids = some cl)
    {d : δ} {e : ℕ} {v : List ℕ} (h : HasEntity t d e v) {l : List ℕ} (hl : cl.at? d e = some l) :
    l.Pairwise (· < ·) := by
  obtain ⟨cl', h1, h2, -⟩ := closure_outer ht hm hc t (fun _ h => h) ht.1 []
  have : cl' = cl := by
    have h3 : entityClosureIds t ids = some cl' := h1
    rw [h3] at hcl; exact Option.some.inj hcl
  subst this
  obtain ⟨es, hes, hv⟩ := h
  have hmem := Dict.mem_of_get? hes
  have : cl'.at? d e = some (closureList t ids v) := by
    unfold EntityIds.at?
    rw [h2 d es hmem, Option.bind_some, foldl_set_get (ht.2 _ hmem), hv]
    rfl
  rw [this] at hl
  obtain rfl := Option.some.inj hl
  apply pySorted_pairwise_lt
  rw [List.nodup_flatMap]
  constructor
  · intro s hs
    rcases h : ids.at? (ofLex s).1 (ofLex s).2 with _ | x
    · simp
    · simpa using hnd _ _ _ h
  · refine (subEntitiesOf_sorted ht v).imp ?_
    intro a b hab n hn hn'
    simp only at hn hn'
    rcases ha : ids.at? (ofLex a).1 (ofLex a).2 with _ | x
    · rw [ha] at hn; simp at hn
    · rcases hb : ids.at? (ofLex b).1 (ofLex b).2 with _ | y
      · rw [hb] at hn'; simp at hn'
      · rw [ha] at hn; rw [hb] at hn'
        refine hdis _ _ _ _ _ _ ha hb ?_ n hn hn'
        intro he
        exact hab.ne (ofLex.injective he)

end FIAT
