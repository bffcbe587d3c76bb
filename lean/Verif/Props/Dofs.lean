/-
Specification of "the dofs are partitioned among the entities" and the general layout theorem for the
entity-by-entity loop, used for C21, C22.
-/
import Verif.Lemmas.DofLayout
import Mathlib.Data.List.Pairwise

namespace FIAT
section
variable {δ : Type} [LinearOrder δ] {N : Type}

/-- Specification: every dof below `n` is listed on exactly one entity, once; nothing else is listed. -/
def DofsPartition (ids : EntityIds δ) (n : ℕ) : Prop :=
  (∀ d e l, ids.at? d e = some l → l.Nodup ∧ ∀ i ∈ l, i < n) ∧
  (∀ i < n, ∃! p : δ × ℕ, ∃ l, ids.at? p.1 p.2 = some l ∧ i ∈ l)

/-- Specification: dofs increase with the dimension of the entity, then with its number. -/
def DofsIncreasing (ids : EntityIds δ) : Prop :=
  ∀ d e l d' e' l', ids.at? d e = some l → ids.at? d' e' = some l' → (d < d' ∨ d = d' ∧ e < e') →
    ∀ i ∈ l, ∀ j ∈ l', i < j

/-- Specification: `entity_ids` has an entry for exactly the entities of the topology. -/
def SameEntities (topo : Topology δ) (ids : EntityIds δ) : Prop :=
  ∀ d e, (ids.at? d e).isSome ↔ ∃ v, HasEntity topo d e v

private theorem nodesBefore_cons (P : δ × ℕ → List N) (a : δ × ℕ) (L : List (δ × ℕ)) (x : δ × ℕ) :
    nodesBefore P (a :: L) x = if a = x then 0 else (P a).length + nodesBefore P L x := by
  unfold nodesBefore
  rw [List.takeWhile_cons]
  by_cases h : a = x
  · simp [h]
  · rw [if_pos (by simpa using h), if_neg h]; simp

private theorem locate (P : δ × ℕ → List N) (L : List (δ × ℕ)) (hL : L.Nodup) (i : ℕ)
    (hi : i < (L.flatMap P).length) :
    ∃ x ∈ L, nodesBefore P L x ≤ i ∧ i < nodesBefore P L x + (P x).length := by
  induction L generalizing i with
  | nil => simp at hi
  | cons a L ih =>
    rw [List.nodup_cons] at hL
    rw [List.flatMap_cons, List.length_append] at hi
    by_cases h : i < (P a).length
    · exact ⟨a, by simp, by rw [nodesBefore_cons, if_pos rfl]; omega,
        by rw [nodesBefore_cons, if_pos rfl]; omega⟩
    · obtain ⟨x, hx, h1, h2⟩ := ih hL.2 (i - (P a).length) (by omega)
      have hne : a ≠ x := by rintro rfl; exact hL.1 hx
      exact ⟨x, List.mem_cons_of_mem _ hx, by rw [nodesBefore_cons, if_neg hne]; omega,
        by rw [nodesBefore_cons, if_neg hne]; omega⟩

private theorem before_lt (P : δ × ℕ → List N) (L : List (δ × ℕ)) (hL : L.Nodup) :
    L.Pairwise fun x y => nodesBefore P L x + (P x).length ≤ nodesBefore P L y := by
  induction L with
  | nil => exact List.Pairwise.nil
  | cons a L ih =>
    rw [List.nodup_cons] at hL
    refine List.pairwise_cons.2 ⟨fun y hy => ?_, ?_⟩
    · have hne : a ≠ y := by rintro rfl; exact hL.1 hy
      rw [nodesBefore_cons, if_pos rfl, nodesBefore_cons, if_neg hne]; omega
    · have := List.Pairwise.and_mem.1 (ih hL.2)
      refine this.imp ?_
      rintro x y ⟨hx, hy, h⟩
      have hnx : a ≠ x := by rintro rfl; exact hL.1 hx
      have hny : a ≠ y := by rintro rfl; exact hL.1 hy
      rw [nodesBefore_cons, if_neg hnx, nodesBefore_cons, if_neg hny]; omega

private theorem before_le (P : δ × ℕ → List N) (L : List (δ × ℕ)) (x : δ × ℕ) (hx : x ∈ L) :
    nodesBefore P L x + (P x).length ≤ (L.flatMap P).length := by
  induction L with
  | nil => simp at hx
  | cons a L ih =>
    rw [nodesBefore_cons, List.flatMap_cons, List.length_append]
    split_ifs with h
    · subst h; omega
    · have := ih (by simpa [Ne.symm h] using hx); omega

private theorem node_at (P : δ × ℕ → List N) (L : List (δ × ℕ)) (x : δ × ℕ) (hx : x ∈ L) (j : ℕ)
    (hj : j < (P x).length) : (L.flatMap P)[nodesBefore P L x + j]? = (P x)[j]? := by
  induction L with
  | nil => simp at hx
  | cons a L ih =>
    rw [nodesBefore_cons, List.flatMap_cons]
    split_ifs with h
    · subst h; rw [List.getElem?_append_left (by omega), Nat.zero_add]
    · rw [List.getElem?_append_right (by omega), ← ih (by simpa [Ne.symm h] using hx)]
      congr 1; omega

/-- A numbering laid out consecutively along `L` is a partition, and the dofs of an entity index its nodes. -/
theorem layout_partition (P : δ × ℕ → List N) (L : List (δ × ℕ)) (hL : L.Nodup) (ids : EntityIds δ)
    (hids : ∀ d e, ids.at? d e =
      if (d, e) ∈ L then some (List.range' (nodesBefore P L (d, e)) (P (d, e)).length) else none) :
    DofsPartition ids (L.flatMap P).length ∧
    ∀ d e l, ids.at? d e = some l → l.map (fun i => (L.flatMap P)[i]?) = (P (d, e)).map some := by
  have hget : ∀ {d e l}, ids.at? d e = some l → (d, e) ∈ L ∧
      l = List.range' (nodesBefore P L (d, e)) (P (d, e)).length := by
    intro d e l h
    rw [hids] at h
    split_ifs at h with hm
    exact ⟨hm, (Option.some.inj h).symm⟩
  have hord : ∀ x y, x ∈ L → y ∈ L → x ≠ y →
      nodesBefore P L x + (P x).length ≤ nodesBefore P L y ∨
      nodesBefore P L y + (P y).length ≤ nodesBefore P L x := by
    intro x y hx hy hne
    have h1 := before_lt P L hL
    have : Std.Symm fun x y : δ × ℕ => nodesBefore P L x + (P x).length ≤ nodesBefore P L y ∨
      nodesBefore P L y + (P y).length ≤ nodesBefore P L x := ⟨fun a b h => h.symm⟩
    exact (List.Pairwise.imp (S := fun x y : δ × ℕ => nodesBefore P L x + (P x).length ≤ nodesBefore P L y ∨
      nodesBefore P L y + (P y).length ≤ nodesBefore P L x) (fun h => Or.inl h) h1).forall hx hy hne
  refine ⟨⟨?_, ?_⟩, ?_⟩
  · intro d e l hl
    obtain ⟨hm, rfl⟩ := hget hl
    refine ⟨List.nodup_range' .., fun i hi => ?_⟩
    rw [List.mem_range'_1] at hi
    have := before_le P _ _ hm
    omega
  · intro i hi
    obtain ⟨x, hx, h1, h2⟩ := locate P _ hL i hi
    refine ⟨x, ⟨_, by rw [hids, if_pos (show (x.1, x.2) ∈ _ from hx)], List.mem_range'_1.2 ⟨h1, h2⟩⟩, ?_⟩
    rintro y ⟨l, hl, hil⟩
    obtain ⟨hy, rfl⟩ := hget hl
    have hil' : nodesBefore P L y ≤ i ∧ i < nodesBefore P L y + (P y).length := List.mem_range'_1.1 hil
    by_contra hne
    have := hord y x hy hx hne
    omega
  · intro d e l hl
    obtain ⟨hm, rfl⟩ := hget hl
    apply List.ext_getElem?
    intro j
    by_cases hj : j < (P (d, e)).length
    · rw [List.getElem?_map, List.getElem?_range' hj, List.getElem?_map, Option.map_some, Nat.one_mul,
        node_at P _ _ hm j hj, List.getElem?_eq_getElem hj]
      rfl
    · rw [List.getElem?_eq_none (by simpa using hj), List.getElem?_eq_none (by simpa using hj)]

/-- General layout theorem: if the point function is defined on every entity, the entity-by-entity loop
ends with the nodes in loop order, and the entity numbering is a partition of `range(len(nodes))`,
increasing in dimension and entity number, in which the dofs of an entity index its own nodes, in order. -/
theorem number_entities_spec (topo : Topology δ) (ht : topo.WF) (pts : δ → ℕ → Option (List N))
    (P : δ × ℕ → List N) (hP : ∀ d e v, HasEntity topo d e v → pts d e = some (P (d, e))) :
    ∃ nodes ids, numberEntities topo pts = some (nodes.length, nodes, ids) ∧
      nodes = (loopOrder topo).flatMap P ∧
      SameEntities topo ids ∧ DofsPartition ids nodes.length ∧ DofsIncreasing ids ∧
      ∀ d e l, ids.at? d e = some l → l.map (fun i => nodes[i]?) = (P (d, e)).map some := by
  obtain ⟨⟨cur, nodes, ids⟩, hst, hinv⟩ := numberEntities_inv topo ht pts P hP
  have hcur := hinv.cur; have hnodes := hinv.nodes; have hids := hinv.ids
  simp only at hcur hnodes hids
  have hnd := loopOrder_nodup ht
  have hget : ∀ {d e l}, ids.at? d e = some l → (d, e) ∈ loopOrder topo ∧
      l = List.range' (nodesBefore P (loopOrder topo) (d, e)) (P (d, e)).length := by
    intro d e l h
    rw [hids] at h
    split_ifs at h with hm
    exact ⟨hm, (Option.some.inj h).symm⟩
  -- order of blocks
  have hord : ∀ x y, x ∈ loopOrder topo → y ∈ loopOrder topo → (x.1 < y.1 ∨ x.1 = y.1 ∧ x.2 < y.2) →
      nodesBefore P (loopOrder topo) x + (P x).length ≤ nodesBefore P (loopOrder topo) y := by
    intro x y hx hy hxy
    have h1 := (loopOrder_sorted ht).and (before_lt P _ hnd)
    have key : ∀ (L : List (δ × ℕ)), L.Pairwise (fun a b => (a.1 < b.1 ∨ a.1 = b.1 ∧ a.2 < b.2) ∧
        nodesBefore P (loopOrder topo) a + (P a).length ≤ nodesBefore P (loopOrder topo) b) →
        x ∈ L → y ∈ L →
        nodesBefore P (loopOrder topo) x + (P x).length ≤ nodesBefore P (loopOrder topo) y := by
      intro L hL hx hy
      induction L with
      | nil => simp at hx
      | cons a L ih =>
        rw [List.pairwise_cons] at hL
        rcases List.mem_cons.1 hx with rfl | hx' <;> rcases List.mem_cons.1 hy with rfl | hy'
        · exfalso
          rcases hxy with h | h
          · exact lt_irrefl _ h
          · exact lt_irrefl _ h.2
        · exact (hL.1 y hy').2
        · exfalso
          have := (hL.1 x hx').1
          rcases this with h | h <;> rcases hxy with h' | h'
          · exact lt_asymm h h'
          · exact absurd h'.1 (ne_of_gt h)
          · exact absurd h.1 (ne_of_gt h')
          · exact lt_asymm h.2 h'.2
        · exact ih hL.2 hx' hy'
    exact key _ h1 hx hy
  have hmemr : ∀ {i a n : ℕ}, i ∈ List.range' a n ↔ a ≤ i ∧ i < a + n := by
    intro i a n; rw [List.mem_range'_1]
  have hcn : cur = nodes.length := by rw [hcur, hnodes]
  refine ⟨nodes, ids, by rw [hst, hcn], hnodes, ?_, ⟨?_, ?_⟩, ?_, ?_⟩
  · intro d e
    rw [hids, ← mem_loopOrder ht]
    split_ifs with h <;> simp [h]
  · intro d e l hl
    obtain ⟨hm, rfl⟩ := hget hl
    refine ⟨List.nodup_range' .., fun i hi => ?_⟩
    rw [hmemr] at hi
    have := before_le P _ _ hm
    rw [hnodes]; omega
  · intro i hi
    rw [hnodes] at hi
    obtain ⟨x, hx, h1, h2⟩ := locate P _ hnd i hi
    refine ⟨x, ⟨_, by rw [hids, if_pos (show (x.1, x.2) ∈ _ from hx)], hmemr.2 ⟨h1, h2⟩⟩, ?_⟩
    rintro y ⟨l, hl, hil⟩
    obtain ⟨hy, rfl⟩ := hget hl
    have hil' : nodesBefore P (loopOrder topo) y ≤ i ∧
        i < nodesBefore P (loopOrder topo) y + (P y).length := hmemr.1 hil
    clear hil
    by_contra hne
    rcases lt_trichotomy x.1 y.1 with h | h | h
    · have := hord x y hx hy (Or.inl h); omega
    · rcases lt_trichotomy x.2 y.2 with h' | h' | h'
      · have := hord x y hx hy (Or.inr ⟨h, h'⟩); omega
      · exact hne (Prod.ext h.symm h'.symm)
      · have := hord y x hy hx (Or.inr ⟨h.symm, h'⟩); omega
    · have := hord y x hy hx (Or.inl h); omega
  · intro d e l d' e' l' hl hl' hlt i hi j hj
    obtain ⟨hm, rfl⟩ := hget hl
    obtain ⟨hm', rfl⟩ := hget hl'
    rw [hmemr] at hi hj
    have := hord _ _ hm hm' hlt
    omega
  · intro d e l hl
    obtain ⟨hm, rfl⟩ := hget hl
    rw [hnodes]
    apply List.ext_getElem?
    intro j
    by_cases hj : j < (P (d, e)).length
    · rw [List.getElem?_map, List.getElem?_range' hj, List.getElem?_map, Option.map_some, Nat.one_mul,
        node_at P _ _ hm j hj, List.getElem?_eq_getElem hj]
      rfl
    · rw [List.getElem?_eq_none (by simpa using hj), List.getElem?_eq_none (by simpa using hj)]

end
end FIAT
