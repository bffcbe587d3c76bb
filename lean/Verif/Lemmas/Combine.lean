/- Helper lemmas for the combination of entity dof numberings. -/
import Verif.Model.Combine
import Verif.Lemmas.PyDict
import Verif.Lemmas.DofLayout
import Verif.Props.Dofs

namespace FIAT

theorem foldlM_flatMap {σ α β : Type} (f : σ → β → Option σ) (g : α → List β) (l : List α) (s : σ) :
    (l.flatMap g).foldlM f s = l.foldlM (fun s a => (g a).foldlM f s) s := by
  induction l generalizing s with
  | nil => rfl
  | cons a l ih =>
    rw [List.flatMap_cons, List.foldlM_append, List.foldlM_cons]
    congr 1
    funext s'
    exact ih s'

section
variable {δ : Type} [LinearOrder δ]

/-- All `(dimension, entity, list)` triples of a numbering in iteration order. -/
def triples (ids : EntityIds δ) : List (δ × ℕ × List ℕ) :=
  ids.flatMap fun p => p.2.map fun q => (p.1, q.1, q.2)

theorem Dict.filter_key {κ α : Type} [DecidableEq κ] (m : Dict κ α) (hm : m.WF) (k : κ) :
    List.filter (fun q => decide (q.1 = k)) m = ((m.get? k).map fun v => (k, v)).toList := by
  induction m with
  | nil => rfl
  | cons q m ih =>
    obtain ⟨k', v⟩ := q
    have hm' : k' ∉ Dict.keys m ∧ Dict.WF m := by
      have := List.nodup_cons.1 hm
      exact this
    rw [Dict.get?_cons, List.filter_cons]
    by_cases h : k' = k
    · subst h
      rw [if_pos (by simp), if_pos rfl, ih hm'.2, Dict.get?_eq_none_iff.2 hm'.1]
      rfl
    · rw [if_neg (by simpa using h), if_neg h, ih hm'.2]

/-- What the triples hold for one entity. -/
theorem triples_at (ids : EntityIds δ) (h : Topology.WF ids) (d : δ) (e : ℕ) (f : ℕ → ℕ) :
    ((triples ids).filter fun t => decide (t.1 = d ∧ t.2.1 = e)).flatMap (fun t => t.2.2.map f) =
      ((ids.at? d e).getD []).map f := by
  have h1 : ∀ p : δ × Dict ℕ (List ℕ), p ∈ ids →
      ((p.2.map fun q => (p.1, q.1, q.2)).filter fun t => decide (t.1 = d ∧ t.2.1 = e)).flatMap
        (fun t : δ × ℕ × List ℕ => t.2.2.map f) =
      if p.1 = d then ((p.2.get? e).getD []).map f else [] := by
    intro p hp
    rw [List.filter_map]
    by_cases hd : p.1 = d
    · rw [if_pos hd]
      have : ((fun t : δ × ℕ × List ℕ => decide (t.1 = d ∧ t.2.1 = e)) ∘ fun q : ℕ × List ℕ => (p.1, q.1, q.2)) =
          fun q => decide (q.1 = e) := by
        funext q; simp [hd]
      rw [this, Dict.filter_key p.2 (h.2 p hp)]
      cases p.2.get? e <;> simp
    · rw [if_neg hd]
      have : ((fun t : δ × ℕ × List ℕ => decide (t.1 = d ∧ t.2.1 = e)) ∘ fun q : ℕ × List ℕ => (p.1, q.1, q.2)) =
          fun q => false := by
        funext q; simp [hd]
      rw [this]; simp
  unfold triples
  rw [List.filter_flatMap, List.flatMap_assoc]
  have h2 : (ids.flatMap fun p => ((p.2.map fun q => (p.1, q.1, q.2)).filter
      fun t => decide (t.1 = d ∧ t.2.1 = e)).flatMap (fun t : δ × ℕ × List ℕ => t.2.2.map f)) =
      ids.flatMap fun p => if p.1 = d then ((p.2.get? e).getD []).map f else [] := by
    exact List.flatMap_congr h1
  rw [h2]
  clear h1 h2
  have hw := h.1
  clear h
  unfold EntityIds.at?
  induction ids with
  | nil => rfl
  | cons p ids ih =>
    have hm' : p.1 ∉ Dict.keys ids ∧ Dict.WF ids := List.nodup_cons.1 hw
    obtain ⟨d', m⟩ := p
    rw [List.flatMap_cons, ih hm'.2, Dict.get?_cons]
    by_cases hd : d' = d
    · subst hd
      rw [Dict.get?_eq_none_iff.2 hm'.1]
      simp
    · simp [hd]

theorem addToEntity_at {ids : EntityIds δ} {d : δ} {e : ℕ} (xs : List ℕ) (h : (ids.at? d e).isSome) :
    ∃ ids', addToEntity ids d e xs = some ids' ∧
      ∀ d' e', ids'.at? d' e' = (ids.at? d' e').map (· ++ if d = d' ∧ e = e' then xs else []) := by
  unfold EntityIds.at? at h
  obtain ⟨l, hl⟩ := Option.isSome_iff_exists.1 h
  obtain ⟨m, hm, hl⟩ := Option.bind_eq_some_iff.1 hl
  refine ⟨Dict.put ids d (Dict.put m e (l ++ xs)), by simp [addToEntity, hm, hl], fun d' e' => ?_⟩
  rw [EntityIds.at?_put]
  by_cases hd : d = d'
  · subst hd
    rw [if_pos rfl, Dict.get?_put]
    by_cases he : e = e'
    · subst he; simp [EntityIds.at?, hm, hl]
    · simp [EntityIds.at?, hm, he]
  · simp [hd]

/-- The loop `ids[d][e] += f(l)` over a list of triples. -/
theorem addTo_fold (f : ℕ → ℕ) (T : List (δ × ℕ × List ℕ)) (s : EntityIds δ)
    (h : ∀ t ∈ T, (s.at? t.1 t.2.1).isSome) :
    ∃ s', T.foldlM (fun s t => addToEntity s t.1 t.2.1 (t.2.2.map f)) s = some s' ∧
      ∀ d e, s'.at? d e = (s.at? d e).map
        (· ++ (T.filter fun t => decide (t.1 = d ∧ t.2.1 = e)).flatMap (fun t => t.2.2.map f)) := by
  induction T generalizing s with
  | nil => exact ⟨s, rfl, fun d e => by simp⟩
  | cons t T ih =>
    obtain ⟨s1, h1, h2⟩ := addToEntity_at (t.2.2.map f) (h t (by simp))
    obtain ⟨s', h3, h4⟩ := ih s1 (fun t' ht' => by rw [h2, Option.isSome_map]; exact h t' (by simp [ht']))
    refine ⟨s', by rw [List.foldlM_cons, h1]; exact h3, fun d e => ?_⟩
    rw [h4, h2, Option.map_map, List.filter_cons]
    congr 1
    funext l
    by_cases hc : t.1 = d ∧ t.2.1 = e
    · simp [hc]
    · simp [hc]

theorem triples_mem {ids : EntityIds δ} (h : Topology.WF ids) {t : δ × ℕ × List ℕ} (ht : t ∈ triples ids) :
    ids.at? t.1 t.2.1 = some t.2.2 := by
  obtain ⟨p, hp, ht⟩ := List.mem_flatMap.1 ht
  obtain ⟨q, hq, rfl⟩ := List.mem_map.1 ht
  unfold EntityIds.at?
  simp only
  rw [Dict.get?_of_mem h.1 (show (p.1, p.2) ∈ ids from hp)]
  exact Dict.get?_of_mem (h.2 p hp) hq

/-- The dofs of all elements on one entity, shifted; `off` is the first free dof. -/
def shifted (d : δ) (e : ℕ) : ℕ → List (ℕ × EntityIds δ) → List ℕ
  | _, [] => []
  | off, x :: es => ((x.2.at? d e).getD []).map (off + ·) ++ shifted d e (off + x.1) es

theorem shifted_append (d : δ) (e off : ℕ) (a b : List (ℕ × EntityIds δ)) :
    shifted d e off (a ++ b) = shifted d e off a ++ shifted d e (off + (a.map Prod.fst).sum) b := by
  induction a generalizing off with
  | nil => simp [shifted]
  | cons x a ih => simp [shifted, ih, Nat.add_assoc]

/-- A family of lists partitions `[off, off + n)`. -/
structure PartFrom (f : δ → ℕ → List ℕ) (off n : ℕ) : Prop where
  nodup : ∀ d e, (f d e).Nodup
  range : ∀ d e, ∀ i ∈ f d e, off ≤ i ∧ i < off + n
  ex : ∀ i, off ≤ i → i < off + n → ∃ d e, i ∈ f d e
  uniq : ∀ i d e d' e', i ∈ f d e → i ∈ f d' e' → d = d' ∧ e = e'

theorem partFrom_of (ids : EntityIds δ) (n : ℕ) :
    DofsPartition ids n ↔ PartFrom (fun d e => (ids.at? d e).getD []) 0 n := by
  constructor
  · rintro ⟨h1, h2⟩
    have hsome : ∀ d e i, i ∈ (ids.at? d e).getD [] → ∃ l, ids.at? d e = some l ∧ i ∈ l := by
      intro d e i hi
      cases h : ids.at? d e with
      | none => rw [h] at hi; simp at hi
      | some l => rw [h] at hi; exact ⟨l, rfl, hi⟩
    refine ⟨fun d e => ?_, fun d e i hi => ?_, fun i _ hi => ?_, fun i d e d' e' hi hi' => ?_⟩
    · cases h : ids.at? d e with
      | none => simp
      | some l => exact (h1 d e l h).1
    · obtain ⟨l, hl, hi⟩ := hsome d e i hi
      have := (h1 d e l hl).2 i hi
      omega
    · obtain ⟨⟨d, e⟩, ⟨l, hl, hil⟩, _⟩ := h2 i (by omega)
      exact ⟨d, e, by simp only at hl; rw [hl]; exact hil⟩
    · obtain ⟨l, hl, hil⟩ := hsome d e i hi
      obtain ⟨l', hl', hil'⟩ := hsome d' e' i hi'
      have hlt := (h1 d e l hl).2 i hil
      have := (h2 i hlt).unique (y₁ := (d, e)) (y₂ := (d', e')) ⟨l, hl, hil⟩ ⟨l', hl', hil'⟩
      exact ⟨congrArg Prod.fst this, congrArg Prod.snd this⟩
  · intro h
    refine ⟨fun d e l hl => ⟨?_, fun i hi => ?_⟩, fun i hi => ?_⟩
    · have := h.nodup d e; simp only [hl] at this; exact this
    · have := h.range d e i (by simp only [hl]; exact hi); omega
    · obtain ⟨d, e, hde⟩ := h.ex i (by omega) (by omega)
      have hl : ∃ l, ids.at? d e = some l ∧ i ∈ l := by
        cases hh : ids.at? d e with
        | none => simp [hh] at hde
        | some l => simp only [hh] at hde; exact ⟨l, rfl, hde⟩
      refine ⟨(d, e), hl, ?_⟩
      rintro ⟨d', e'⟩ ⟨l', hl', hil'⟩
      simp only at hl'
      obtain ⟨h1, h2⟩ := h.uniq i d' e' d e (by simp only [hl']; exact hil') hde
      rw [h1, h2]

theorem shifted_part (es : List (ℕ × EntityIds δ)) (hp : ∀ x ∈ es, DofsPartition x.2 x.1) (off : ℕ) :
    PartFrom (fun d e => shifted d e off es) off (es.map Prod.fst).sum := by
  induction es generalizing off with
  | nil => exact ⟨by simp [shifted], by simp [shifted], by intro i h1 h2; simp at h2; omega, by simp [shifted]⟩
  | cons x es ih =>
    have h1 := (partFrom_of x.2 x.1).1 (hp x (by simp))
    have h2 := ih (fun y hy => hp y (by simp [hy])) (off + x.1)
    have hm : ∀ d e i, i ∈ shifted d e off (x :: es) ↔
        (∃ j ∈ (x.2.at? d e).getD [], off + j = i) ∨ i ∈ shifted d e (off + x.1) es := by
      intro d e i; simp [shifted]
    refine ⟨fun d e => ?_, fun d e i hi => ?_, fun i hi1 hi2 => ?_, fun i d e d' e' hi hi' => ?_⟩
    · simp only [shifted]
      rw [List.nodup_append]
      refine ⟨(h1.nodup d e).map (fun a b h => by simpa using h), h2.nodup d e, ?_⟩
      intro a ha b hb
      obtain ⟨j, hj, rfl⟩ := List.mem_map.1 ha
      have := h1.range d e j hj
      have := h2.range d e b hb
      omega
    · rcases (hm d e i).1 hi with ⟨j, hj, rfl⟩ | h
      · have := h1.range d e j hj
        simp; omega
      · have := h2.range d e i h
        simp; omega
    · by_cases hlt : i < off + x.1
      · obtain ⟨d, e, h⟩ := h1.ex (i - off) (by omega) (by omega)
        exact ⟨d, e, (hm d e i).2 (.inl ⟨i - off, h, by omega⟩)⟩
      · obtain ⟨d, e, h⟩ := h2.ex i (by omega) (by simp at hi2; omega)
        exact ⟨d, e, (hm d e i).2 (.inr h)⟩
    · rcases (hm d e i).1 hi with ⟨j, hj, rfl⟩ | h <;> rcases (hm d' e' _).1 hi' with ⟨j', hj', h'⟩ | h'
      · have : j' = j := by omega
        subst this
        exact h1.uniq j' d e d' e' hj hj'
      · have := h1.range d e j hj
        have := h2.range d' e' _ h'
        omega
      · have := h1.range d' e' j' hj'
        have := h2.range d e _ h
        omega
      · exact h2.uniq i d e d' e' h h'

end
end FIAT
