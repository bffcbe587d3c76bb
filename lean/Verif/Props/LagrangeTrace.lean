/-
C75: Lagrange elements as factors of tensor products.
-/
import Verif.Props.ProductTrace
import Verif.Props.TensorNormalsCells
import Verif.Props.EntityTables
import Verif.Lemmas.NumberOrder

namespace FIAT
open MvPolynomial

/-- `entity_ids` of an element on a simplex, its dimensions written as the integers they are in Python. -/
def intIds (ids : EntityIds ℕ) : EntityIds Key := ids.map fun p => (Key.int p.1, p.2)

theorem intIds_get (ids : EntityIds ℕ) (d : ℕ) : Dict.get? (intIds ids) (.int d) = Dict.get? ids d := by
  unfold intIds
  induction ids with
  | nil => rfl
  | cons p ids ih =>
    rw [List.map_cons, Dict.get?_cons, Dict.get?_cons, ih]
    by_cases h : p.1 = d
    · rw [if_pos h, if_pos (by rw [h])]
    · rw [if_neg h, if_neg (by simpa using h)]

theorem intIds_at (ids : EntityIds ℕ) (d e : ℕ) : (intIds ids).at? (.int d) e = ids.at? d e := by
  unfold EntityIds.at?
  rw [intIds_get]

theorem intIds_key {ids : EntityIds ℕ} {k : Key} {e : ℕ} {l : List ℕ} (h : (intIds ids).at? k e = some l) : ∃ d, k = .int d := by
  obtain ⟨m, h1, -⟩ := Option.bind_eq_some_iff.1 h
  have := Dict.mem_of_get? h1
  obtain ⟨q, -, hq⟩ := List.mem_map.1 this
  cases hq
  exact ⟨_, rfl⟩

theorem intIds_wf {ids : EntityIds ℕ} (h : Topology.WF ids) : Topology.WF (intIds ids) := by
  constructor
  · unfold Dict.WF Dict.keys intIds
    rw [List.map_map]
    have : (Prod.fst ∘ fun p : ℕ × Dict ℕ (List ℕ) => (Key.int p.1, p.2)) = Key.int ∘ Prod.fst := rfl
    rw [this, ← List.map_map]
    exact List.Nodup.map (fun a b h => by simpa using h) h.1
  · intro p hp
    obtain ⟨q, hq, rfl⟩ := List.mem_map.1 hp
    exact h.2 q hq

theorem intIds_partition {ids : EntityIds ℕ} {n : ℕ} (h : DofsPartition ids n) : DofsPartition (intIds ids) n := by
  refine ⟨fun d e l hl => ?_, fun i hi => ?_⟩
  · obtain ⟨d, rfl⟩ := intIds_key hl
    rw [intIds_at] at hl
    exact h.1 _ _ _ hl
  · obtain ⟨⟨d, e⟩, ⟨l, h1, h2⟩, h3⟩ := h.2 i hi
    refine ⟨(.int d, e), ⟨l, by rw [intIds_at]; exact h1, h2⟩, ?_⟩
    rintro ⟨k', e'⟩ ⟨l', h4, h5⟩
    obtain ⟨d', rfl⟩ := intIds_key h4
    rw [intIds_at] at h4
    have := h3 (d', e') ⟨l', h4, h5⟩
    cases this
    rfl

section
variable {D : ℕ} {c : CellData ℝ}

theorem intIds_same {ids : EntityIds ℕ} (hc : IntKeys c.topo) (h : SameEntities (c.toSimplex D).topo ids) :
    SameEntities c.topo (intIds ids) := by
  intro k e
  constructor
  · intro h1
    obtain ⟨l, hl⟩ := Option.isSome_iff_exists.1 h1
    obtain ⟨d, rfl⟩ := intIds_key hl
    rw [intIds_at] at hl
    obtain ⟨v, hv⟩ := (h d e).1 (by rw [hl]; rfl)
    exact ⟨v, (toSimplex_entity hc D d e v).1 hv⟩
  · rintro ⟨v, hv⟩
    obtain ⟨es, m1, -⟩ := hv.mem
    obtain ⟨d, hd⟩ := hc _ m1
    simp only at hd
    subst hd
    rw [intIds_at]
    exact (h d e).2 ⟨v, (toSimplex_entity hc D d e v).2 hv⟩

theorem intIds_closure {ids : EntityIds ℕ} (hc : IntKeys c.topo) (t : List ℕ) (i : ℕ) :
    InClosure c.topo (intIds ids) t i ↔ InClosure (c.toSimplex D).topo ids t i := by
  constructor
  · rintro ⟨k, e, v, l, h1, h2, h3, h4⟩
    obtain ⟨d, rfl⟩ := intIds_key h3
    rw [intIds_at] at h3
    exact ⟨d, e, v, l, (toSimplex_entity hc D d e v).2 h1, h2, h3, h4⟩
  · rintro ⟨d, e, v, l, h1, h2, h3, h4⟩
    exact ⟨.int d, e, v, l, (toSimplex_entity hc D d e v).1 h1, h2, by rw [intIds_at]; exact h3, h4⟩

/-- The dofs of a Lagrange element list the entities in order. -/
theorem lagrange_ids_order (gc : GoodCell c) (hc : IntKeys c.topo) (hwf : (c.toSimplex D).topo.WF) {k : ℕ}
    {nodes : List (Fin D → ℝ)} {ids : EntityIds ℕ} (hdual : lagrangeDual ℝ (c.toSimplex D) k = some (nodes, ids)) :
    Topology.WF (intIds ids) ∧ InOrder (intIds ids) := by
  unfold lagrangeDual at hdual
  obtain ⟨⟨n, nodes', ids'⟩, h1, h2⟩ := Option.map_eq_some_iff.1 hdual
  simp only [Prod.mk.injEq] at h2
  obtain ⟨rfl, rfl⟩ := h2
  obtain ⟨w, ho⟩ := numberEntities_keys _ hwf _ h1
  refine ⟨intIds_wf w, fun k es hm => ?_⟩
  obtain ⟨⟨d, es'⟩, hq, he⟩ := List.mem_map.1 hm
  cases he
  obtain ⟨es', h2, h3⟩ := ho d _ (Dict.get?_of_mem w.1 hq)
  have h4 : Dict.get? c.topo (.int d) = some es' := by rw [← toSimplex_get c.topo hc d]; exact h2
  have h5 := gc.numbered _ _ (Dict.mem_of_get? h4)
  rw [h3, h5]
  have := congrArg List.length h3
  rw [h5] at this
  simp only [Dict.keys, List.length_map, List.length_range] at this
  rw [this]

theorem coord_simplex (a : ℕ) (i : Fin D) : (c.toSimplex D).v a i = c.coord a i := by
  unfold SimplexCell.v CellData.toSimplex CellData.coord
  rw [List.getElem?_map]
  cases h : c.verts[a]? <;> simp

/-- C75: a function of a Lagrange space vanishes on an entity exactly if the dofs of the entity and of its sub-entities do. -/
theorem lagrange_trace_dofs (hc : IntKeys c.topo) (hs : ProperSimplex ℝ (c.toSimplex D)) {k : ℕ} (hk : 1 ≤ k)
    {nodes : List (Fin D → ℝ)} {ids : EntityIds ℕ} (hdual : lagrangeDual ℝ (c.toSimplex D) k = some (nodes, ids))
    {φ : ℕ → MvPolynomial (Fin D) ℝ} (hdeg : ∀ i < nodes.length, (φ i).totalDegree ≤ k)
    (hnod : ∀ (i : ℕ) x, nodes[i]? = some x → ∀ j < nodes.length, eval x (φ j) = if i = j then 1 else 0) :
    TraceDofs c D nodes.length (intIds ids) φ := by
  intro key e t ht u
  obtain ⟨es, m1, -⟩ := ht.mem
  obtain ⟨d, hd⟩ := hc _ m1
  simp only at hd
  subst hd
  have ht' := (toSimplex_entity hc D d e t).2 ht
  obtain ⟨nd, -, hlt⟩ := hs.2.1.entity _ _ _ ht'
  simp only [intIds_closure (D := D) hc]
  set p : MvPolynomial (Fin D) ℝ := ∑ i ∈ Finset.range nodes.length, C (u i) * φ i with hp
  have hev : ∀ x, eval x p = ∑ i ∈ Finset.range nodes.length, u i * eval x (φ i) := by
    intro x; rw [hp, map_sum]; simp
  have hpd : p.totalDegree ≤ k := by
    refine (totalDegree_finsetSum _ _).trans (Finset.sup_le fun i hi => ?_)
    refine (totalDegree_mul _ _).trans ?_
    rw [totalDegree_C, zero_add]
    exact hdeg i (Finset.mem_range.1 hi)
  have hval : ∀ (i : ℕ) x, nodes[i]? = some x → eval x p = u i := by
    intro i x hx
    have hi : i < nodes.length := (List.getElem?_eq_some_iff.1 hx).1
    rw [hev, Finset.sum_eq_single i]
    · rw [hnod i x hx i hi, if_pos rfl, mul_one]
    · intro j hj hji
      rw [hnod i x hx j (Finset.mem_range.1 hj), if_neg (Ne.symm hji), mul_zero]
    · intro h; exact absurd (Finset.mem_range.2 hi) h
  constructor
  · rintro h i ⟨d', e', t', l, h1, h2, h3, h4⟩
    obtain ⟨x, hx, w, w1, w2, w3, w4⟩ := lagrange_node_interior (K := ℝ) _ hs.2.1 k hk nodes ids hdual h1 h3 h4
    rw [← hval i x hx, hev]
    refine h x ⟨w, ?_, fun j => ?_⟩
    · rw [← w3, ← List.sum_toFinset _ nd]
      refine Finset.sum_subset (fun a ha => Finset.mem_range.2 (hlt a (List.mem_toFinset.1 ha))) fun a _ ha => ?_
      exact w2 a fun hc => ha (List.mem_toFinset.2 (h2 a hc))
    · rw [w4, Finset.sum_apply, ← List.sum_toFinset _ nd]
      simp only [Pi.smul_apply, smul_eq_mul, coord_simplex]
      symm
      refine Finset.sum_subset (fun a ha => Finset.mem_range.2 (hlt a (List.mem_toFinset.1 ha))) fun a _ ha => ?_
      rw [w2 a fun hc => ha (List.mem_toFinset.2 (h2 a hc)), zero_mul]
  · rintro h x ⟨w, w1, w2⟩
    rw [← hev]
    have hz := lagrange_c0 (K := ℝ) _ hs.2.1 k hk nodes ids hdual ht' p hpd (fun i x hi hx => by rw [hval i x hx]; exact h i hi)
      (fun a => if a ∈ t then w a else 0) (fun j hj => if_neg hj) (by
        rw [← w1, ← List.sum_toFinset _ nd]
        symm
        rw [Finset.sum_congr rfl fun a ha => (if_pos (List.mem_toFinset.1 ha)).symm]
        exact Finset.sum_subset (fun a ha => Finset.mem_range.2 (hlt a (List.mem_toFinset.1 ha)))
          fun a _ ha => if_neg fun hc => ha (List.mem_toFinset.2 hc))
    rw [← hz]
    congr 1
    congr 1
    funext j
    rw [w2 j, Finset.sum_apply, ← List.sum_toFinset _ nd]
    simp only [Pi.smul_apply, smul_eq_mul, coord_simplex]
    rw [Finset.sum_congr rfl fun a ha => show w a * c.coord a j = (if a ∈ t then w a else 0) * c.coord a j by
      rw [if_pos (List.mem_toFinset.1 ha)]]
    exact Finset.sum_subset (fun a ha => Finset.mem_range.2 (hlt a (List.mem_toFinset.1 ha)))
      fun a _ ha => by rw [if_neg fun hc => ha (List.mem_toFinset.2 hc), zero_mul]

end
end FIAT
