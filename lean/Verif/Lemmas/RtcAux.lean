/-
Helper lemmas for C76.
-/
import Verif.Props.QLagrange
import Verif.Props.Combine

namespace FIAT

theorem flat_entities' {c' c : CellData ℝ} (g : GoodCell c') (hc : IsFlatCell c' c) (d i : ℕ) (v : List ℕ) :
    HasEntity c.topo (.int d) i v ↔
      ∃ D e, Dict.get? (computeUnflatteningMap c'.topo) (d, i) = some (D, e) ∧ HasEntity c'.topo D e v := by
  rw [hc.flat.same]
  constructor
  · intro h
    have h1 := (unflatten_domain c'.topo hc.flat.sorted d i).1 (by rw [h]; rfl)
    obtain ⟨⟨D, e⟩, h2⟩ := Option.isSome_iff_exists.1 h1
    obtain ⟨-, m, v', h4, h5, h6⟩ := unflatten_sound c'.topo g.wf.1 g.wf.2 hc.flat.sorted d i D e h2
    rw [h, Option.some.injEq] at h6
    exact ⟨D, e, h2, m, h4, by rw [h6]; exact h5⟩
  · rintro ⟨D, e, h2, m, h3, h3'⟩
    obtain ⟨-, m', v', h4, h5, h6⟩ := unflatten_sound c'.topo g.wf.1 g.wf.2 hc.flat.sorted d i D e h2
    rw [h6, Option.some.injEq]
    rw [h3, Option.some.injEq] at h4
    subst h4
    rw [h3', Option.some.injEq] at h5
    exact h5.symm

theorem flat_dofs' {c' c : CellData ℝ} (g : GoodCell c') (hc : IsFlatCell c' c) {ids : EntityIds Key} (hw : Topology.WF ids)
    (ho : InOrder ids) (hs : SameEntities c'.topo ids) (d i : ℕ) (l : List ℕ) :
    (flatIds ids).at? (.int d) i = some l ↔
      ∃ D e, Dict.get? (computeUnflatteningMap c'.topo) (d, i) = some (D, e) ∧ ids.at? D e = some l := by
  obtain ⟨hmap, hsrt⟩ := unflatten_same g.wf hc.flat.sorted g.numbered hw ho hs
  rw [flatIds_at, ← hmap]
  constructor
  · intro h
    have h1 := (unflatten_domain ids hsrt d i).1 (by rw [h]; rfl)
    obtain ⟨⟨D, e⟩, h2⟩ := Option.isSome_iff_exists.1 h1
    obtain ⟨-, m, v', h4, h5, h6⟩ := unflatten_sound ids hw.1 hw.2 hsrt d i D e h2
    rw [h, Option.some.injEq] at h6
    exact ⟨D, e, h2, by unfold EntityIds.at?; rw [h4, h6]; exact h5⟩
  · rintro ⟨D, e, h2, h3⟩
    obtain ⟨-, m', v', h4, h5, h6⟩ := unflatten_sound ids hw.1 hw.2 hsrt d i D e h2
    rw [h6, Option.some.injEq]
    unfold EntityIds.at? at h3
    rw [h4, Option.bind_some, h5, Option.some.injEq] at h3
    exact h3

/-- The keys of a dictionary of dictionaries. -/
def dictShape {δ α : Type} (d : Dict δ (Dict ℕ α)) : List (δ × List ℕ) := d.map fun p => (p.1, p.2.map Prod.fst)

theorem keys_put_same {κ α : Type} [DecidableEq κ] (d : Dict κ α) (k : κ) (v : α) (h : k ∈ Dict.keys d) : Dict.keys (Dict.put d k v) = Dict.keys d := by
  induction d with
  | nil => exact absurd h List.not_mem_nil
  | cons p d ih =>
    obtain ⟨k', v'⟩ := p
    unfold Dict.put
    by_cases hk : k' = k
    · subst hk; simp [Dict.keys]
    · have hm : k ∈ Dict.keys d := by
        simp only [Dict.keys, List.map_cons, List.mem_cons] at h
        exact h.resolve_left (Ne.symm hk)
      rw [if_neg hk]
      have := ih hm
      simp only [Dict.keys, List.map_cons] at this ⊢
      rw [this]

section
variable {δ : Type} [LinearOrder δ]

theorem put_shape (ids : EntityIds δ) (d : δ) (inner inner' : Dict ℕ (List ℕ)) (h : Dict.get? ids d = some inner)
    (hk : Dict.keys inner' = Dict.keys inner) : dictShape (Dict.put ids d inner') = dictShape ids := by
  induction ids with
  | nil => simp [Dict.get?] at h
  | cons p ids ih =>
    obtain ⟨k', v'⟩ := p
    rw [Dict.get?_cons] at h
    unfold Dict.put
    by_cases hd : k' = d
    · subst hd
      rw [if_pos rfl, Option.some.injEq] at h
      subst h
      rw [if_pos rfl]
      unfold dictShape
      rw [List.map_cons, List.map_cons]
      unfold Dict.keys at hk
      simp only
      rw [hk]
    · rw [if_neg hd] at h ⊢
      have := ih h
      unfold dictShape at this ⊢
      rw [List.map_cons, List.map_cons, this]

theorem addTo_shape {ids ids' : EntityIds δ} {d : δ} {e : ℕ} {xs : List ℕ} (h : addToEntity ids d e xs = some ids') :
    dictShape ids' = dictShape ids := by
  unfold addToEntity at h
  simp only [Option.bind_eq_bind, Option.bind_eq_some_iff] at h
  obtain ⟨inner, h1, l, h2, h3⟩ := h
  rw [← Option.some.inj h3]
  exact put_shape ids d inner _ h1 (keys_put_same _ _ _ (Dict.get?_isSome_iff.1 (by rw [h2]; rfl)))

theorem foldlM_shape {β : Type} (f : EntityIds δ → β → Option (EntityIds δ)) (hf : ∀ s b s', f s b = some s' → dictShape s' = dictShape s)
    (L : List β) : ∀ s s', L.foldlM f s = some s' → dictShape s' = dictShape s := by
  induction L with
  | nil => intro s s' h; simp at h; rw [h]
  | cons b L ih =>
    intro s s' h
    rw [List.foldlM_cons] at h
    simp only [Option.bind_eq_bind, Option.bind_eq_some_iff] at h
    obtain ⟨s1, h1, h2⟩ := h
    rw [ih _ _ h2, hf _ _ _ h1]

/-- `concatenate_entity_dofs` keeps the keys of the topology, in order. -/
theorem concatenate_shape (topo : Topology δ) (es : List (ℕ × EntityIds δ)) (ids : EntityIds δ) (h : concatenateEntityDofs topo es = some ids) :
    dictShape ids = dictShape topo := by
  unfold concatenateEntityDofs at h
  simp only at h
  obtain ⟨⟨n, ids'⟩, h1, rfl⟩ := Option.map_eq_some_iff.1 h
  have key : ∀ (L : List (ℕ × EntityIds δ)) (s s' : ℕ × EntityIds δ), L.foldlM (fun (st : ℕ × EntityIds δ) (x : ℕ × EntityIds δ) => do
      let ids ← x.2.foldlM (fun (ids : EntityIds δ) (p : δ × Dict ℕ (List ℕ)) =>
        p.2.foldlM (fun (ids : EntityIds δ) (q : ℕ × List ℕ) =>
          addToEntity ids p.1 q.1 (q.2.map (st.1 + ·))) ids) st.2
      some (st.1 + x.1, ids)) s = some s' → dictShape s'.2 = dictShape s.2 := by
    intro L
    induction L with
    | nil => intro s s' h; simp at h; rw [h]
    | cons x L ih =>
      intro s s' h
      rw [List.foldlM_cons] at h
      simp only [Option.bind_eq_bind, Option.bind_eq_some_iff] at h
      obtain ⟨s1, ⟨s2, h1, h2⟩, h3⟩ := h
      have e1 : dictShape s2 = dictShape s.2 := by
        refine foldlM_shape _ ?_ _ _ _ h1
        intro a b a' hab
        exact foldlM_shape _ (fun a b a' hab => addTo_shape hab) _ _ _ hab
      rw [ih _ _ h3, ← Option.some.inj h2]
      exact e1
  rw [key _ _ _ h1]
  unfold dictShape
  rw [List.map_map]
  refine List.map_congr_left fun p _ => ?_
  simp only [Function.comp, List.map_map]
  rfl

theorem shape_wf {α β : Type} {a : Dict δ (Dict ℕ α)} {b : Dict δ (Dict ℕ β)} (h : dictShape a = dictShape b) :
    (Dict.WF a ∧ ∀ p ∈ a, Dict.WF p.2) → Dict.WF b ∧ ∀ p ∈ b, Dict.WF p.2 := by
  rintro ⟨h1, h2⟩
  have hk : Dict.keys a = Dict.keys b := by
    have := congrArg (List.map Prod.fst) h
    simpa [dictShape, Dict.keys, Function.comp_def] using this
  refine ⟨by unfold Dict.WF; rw [← hk]; exact h1, fun p hp => ?_⟩
  have : (p.1, p.2.map Prod.fst) ∈ dictShape a := by rw [h]; exact List.mem_map_of_mem (f := fun p : δ × Dict ℕ β => (p.1, p.2.map Prod.fst)) hp
  obtain ⟨q, hq, he⟩ := List.mem_map.1 this
  rw [Prod.mk.injEq] at he
  have := h2 q hq
  unfold Dict.WF Dict.keys at this ⊢
  rw [← he.2]; exact this

end

theorem shape_order {α : Type} {a : Dict Key (Dict ℕ α)} {b : EntityIds Key} (h : dictShape a = dictShape b)
    (ha : ∀ d es, (d, es) ∈ a → Dict.keys es = List.range es.length) : InOrder b := by
  intro d es hm
  have : (d, es.map Prod.fst) ∈ dictShape a := by
    rw [h]; exact List.mem_map_of_mem (f := fun p : Key × Dict ℕ (List ℕ) => (p.1, p.2.map Prod.fst)) hm
  obtain ⟨⟨d', es'⟩, hq, he⟩ := List.mem_map.1 this
  simp only [Prod.mk.injEq] at he
  have h2 := ha _ _ hq
  have hl := congrArg List.length he.2
  simp only [List.length_map] at hl
  unfold Dict.keys at h2 ⊢
  rw [← he.2, h2, hl]

section
variable {K κ : Type} [Zero K] [DecidableEq κ]

theorem enriched_wf (comps : ℕ) (es : List (SubTable K κ)) : Dict.WF (enrichedTabulate comps es) := by
  have inner : ∀ (L : List (κ × (ℕ → ℕ → ℕ → K))) (n m : ℕ) (s : Dict κ (ℕ → ℕ → ℕ → K)), Dict.WF s →
      Dict.WF (L.foldl (fun (out : Dict κ (ℕ → ℕ → ℕ → K)) t =>
        Dict.put out t.1 (writeBlock ((Dict.get? out t.1).getD (fun _ _ _ => 0)) n m 0 comps t.2)) s) := by
    intro L
    induction L with
    | nil => intro n m s h; exact h
    | cons x L ih => intro n m s h; exact ih n m _ (Dict.WF.put h _ _)
  have outer : ∀ (es : List (SubTable K κ)) (st : ℕ × Dict κ (ℕ → ℕ → ℕ → K)), Dict.WF st.2 →
      Dict.WF (es.foldl (fun (st : ℕ × Dict κ (ℕ → ℕ → ℕ → K)) x =>
    (st.1 + x.dim,
      x.table.foldl (fun out t =>
        Dict.put out t.1 (writeBlock ((Dict.get? out t.1).getD (fun _ _ _ => 0)) st.1 x.dim 0 comps t.2))
        st.2)) st).2 := by
    intro es
    induction es with
    | nil => intro st h; exact h
    | cons x es ih => intro st h; exact ih _ (inner _ _ _ _ h)
  exact outer es _ (by simp [Dict.WF, Dict.keys])

theorem enriched_keys (comps : ℕ) (es : List (SubTable K κ)) (a : κ) :
    (Dict.get? (enrichedTabulate comps es) a).isSome ↔ ∃ x ∈ es, (Dict.get? x.table a).isSome := by
  have inner : ∀ (L : List (κ × (ℕ → ℕ → ℕ → K))) (n m : ℕ) (s : Dict κ (ℕ → ℕ → ℕ → K)),
      a ∈ Dict.keys (L.foldl (fun (out : Dict κ (ℕ → ℕ → ℕ → K)) t =>
        Dict.put out t.1 (writeBlock ((Dict.get? out t.1).getD (fun _ _ _ => 0)) n m 0 comps t.2)) s) ↔ a ∈ Dict.keys s ∨ a ∈ L.map Prod.fst := by
    intro L
    induction L with
    | nil => intro n m s; simp
    | cons x L ih =>
      intro n m s
      rw [List.foldl_cons, ih, Dict.mem_keys_put, List.map_cons, List.mem_cons]
      tauto
  have outer : ∀ (es : List (SubTable K κ)) (st : ℕ × Dict κ (ℕ → ℕ → ℕ → K)),
      a ∈ Dict.keys (es.foldl (fun (st : ℕ × Dict κ (ℕ → ℕ → ℕ → K)) x =>
    (st.1 + x.dim,
      x.table.foldl (fun out t =>
        Dict.put out t.1 (writeBlock ((Dict.get? out t.1).getD (fun _ _ _ => 0)) st.1 x.dim 0 comps t.2))
        st.2)) st).2 ↔ a ∈ Dict.keys st.2 ∨ ∃ x ∈ es, a ∈ Dict.keys x.table := by
    intro es
    induction es with
    | nil => intro st; simp
    | cons x es ih =>
      intro st
      rw [List.foldl_cons, ih, inner]
      simp only [List.mem_cons, exists_eq_or_imp]
      unfold Dict.keys
      tauto
  simp only [Dict.get?_isSome_iff]
  exact (outer es _).trans (by simp [Dict.keys])

end
end FIAT
