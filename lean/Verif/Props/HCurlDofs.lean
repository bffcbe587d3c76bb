/-
C23: the degrees of freedom of H(curl) elements built from blocks of nodes on edges, faces and the cell.
-/
import Verif.Lemmas.CurlFaces
import Verif.Props.RTElement

namespace FIAT
open MvPolynomial

section layout
variable {N : Type}

theorem blockBefore_append (n : ℕ × ℕ → ℕ) (L L' : List (ℕ × ℕ)) (x : ℕ × ℕ) (hx : x ∈ L) :
    blockBefore n (L ++ L') x = blockBefore n L x := by
  induction L with
  | nil => simp at hx
  | cons a L ih =>
    rw [List.cons_append, blockBefore_cons, blockBefore_cons]
    by_cases h : a = x
    · rw [if_pos h, if_pos h]
    · rw [if_neg h, if_neg h, ih ((List.mem_cons.1 hx).resolve_left (fun h' => h h'.symm))]

/-- Entities without nodes can be added at the end. -/
theorem EntityBlocks.append {topo : Topology ℕ} {L L' : List (ℕ × ℕ)} {blk : ℕ × ℕ → List N} {nodes : List N} {ids : EntityIds ℕ}
    (h : EntityBlocks topo L blk nodes ids) (hn : (L ++ L').Nodup) (hent : ∀ x ∈ L', ∃ v, HasEntity topo x.1 x.2 v)
    (he : ∀ x ∈ L', blk x = []) : EntityBlocks topo (L ++ L') blk nodes ids := by
  obtain ⟨h1, h2, h3, h4, h5, h6⟩ := h
  refine ⟨?_, hn, ?_, ?_, ?_, h6⟩
  · rw [List.flatMap_append, ← h1]
    have : L'.flatMap blk = [] := by
      rw [List.flatMap_eq_nil_iff]; exact he
    rw [this, List.append_nil]
  · intro x hx
    rcases List.mem_append.1 hx with h | h
    · exact h3 x h
    · exact hent x h
  · intro d e hm
    rcases List.mem_append.1 hm with h | h
    · rw [h4 d e h, blockBefore_append _ _ _ _ h]
    · have hnot : (d, e) ∉ L := fun h' => (List.disjoint_of_nodup_append hn) h' h
      rw [h5 d e hnot (hent _ h), he _ h]
      rfl
  · intro d e hm hv
    exact h5 d e (fun h => hm (List.mem_append_left _ h)) hv

end layout

section
variable {D : ℕ}

/-- Specification of the dofs of an H(curl) element: `ids` lists every dof once, under the entities of the topology; an entity
of dimension `d ≥ 1` has `n d` dofs, vertices have none; for a field of the space, all dofs of an edge or face and of its
sub-entities vanish exactly when the tangential component of the field vanishes on that edge or face. -/
structure HCurlDofs (s : SimplexCell (Fin D → ℝ)) (V : (Fin D → MvPolynomial (Fin D) ℝ) → Prop) (n : ℕ → ℕ)
    (nodes : List (Functional ℝ (Fin D → ℝ))) (ids : EntityIds ℕ) : Prop where
  partition : DofsPartition ids nodes.length
  same : SameEntities s.topo ids
  count : ∀ d e t, HasEntity s.topo d e t → ∃ l, ids.at? d e = some l ∧ l.length = if d = 0 then 0 else n d
  conforming : ∀ d e t, HasEntity s.topo d e t → 1 ≤ d → d < D → ∀ w, V w →
    ((∀ d' e' t' l, HasEntity s.topo d' e' t' → (∀ a ∈ t', a ∈ t) → ids.at? d' e' = some l →
        ∀ i ∈ l, ∃ node, nodes[i]? = some node ∧ node.onField (fieldOf w) = 0) ↔ TangOn s t w)

/-- The entities of dimension at least one, in the order of the loops. -/
def curlEnts (D : ℕ) : List (ℕ × ℕ) := (List.range' 1 D).flatMap (entsOf D)

theorem mem_curlEnts {d e : ℕ} : (d, e) ∈ curlEnts D ↔ 1 ≤ d ∧ d ≤ D ∧ e < (D + 1).choose (d + 1) := by
  unfold curlEnts
  simp only [List.mem_flatMap, mem_entsOf, List.mem_range'_1]
  constructor
  · rintro ⟨d', ⟨h1, h2⟩, rfl, h4⟩; exact ⟨h1, by omega, h4⟩
  · rintro ⟨h1, h2, h3⟩; exact ⟨d, ⟨h1, by omega⟩, rfl, h3⟩

/-- Fields of an element made of tangential blocks. -/
theorem hcurl_dofs (hD : 2 ≤ D) {s : SimplexCell (Fin D → ℝ)} (hs : ProperSimplex ℝ s) (hnum : NumberedSimplex s)
    (V : (Fin D → MvPolynomial (Fin D) ℝ) → Prop) (n : ℕ → ℕ) (blk : ℕ × ℕ → List (Functional ℝ (Fin D → ℝ)))
    (hblk : ∀ d e, 1 ≤ d → d < D → e < (D + 1).choose (d + 1) → TangBlock s V (n d) d e (blk (d, e)))
    (hcl : (blk (D, 0)).length = n D) (hcp : ∀ l ∈ blk (D, 0), PlainNode l)
    (hcz : ∀ w, V w → (∀ e t, HasEntity s.topo (D - 1) e t → TangOn s t w) → (∀ l ∈ blk (D, 0), l.onField (fieldOf w) = 0) → w = 0)
    {nodes : List (Functional ℝ (Fin D → ℝ))} {ids : EntityIds ℕ}
    (hids : EntityBlocks s.topo (curlEnts D) blk nodes ids) :
    HCurlDofs s V n nodes ids ∧ (∀ l ∈ nodes, PlainNode l) ∧
      nodes.length = ((List.range' 1 D).map fun d => (D + 1).choose (d + 1) * n d).sum ∧
      ∀ w, V w → (∀ l ∈ nodes, l.onField (fieldOf w) = 0) → w = 0 := by
  obtain ⟨h1, h2, h3⟩ := hids.layout
  have hlt : ∀ {d e t}, HasEntity s.topo d e t → d ≤ D ∧ e < (D + 1).choose (d + 1) := fun {d e t} h =>
    ⟨hnum.2 d e t h, ((hnum.1 d (hnum.2 d e t h)).2 e).1 ⟨t, h⟩⟩
  have hlen : ∀ x ∈ curlEnts D, (blk x).length = n x.1 := by
    rintro ⟨d, e⟩ hx
    obtain ⟨a, b, c⟩ := mem_curlEnts.1 hx
    rcases Nat.lt_or_eq_of_le b with hb | rfl
    · exact (hblk d e a hb c).1
    · rw [Nat.choose_self, Nat.lt_one_iff] at c
      subst c; exact hcl
  have hz : ∀ d e t, HasEntity s.topo d e t → ∀ l, ids.at? d e = some l → ∀ w : Fin D → MvPolynomial (Fin D) ℝ,
      ((∀ i ∈ l, ∃ node, nodes[i]? = some node ∧ node.onField (fieldOf w) = 0) ↔
        (1 ≤ d → ∀ l ∈ blk (d, e), l.onField (fieldOf w) = 0)) := by
    intro d e t ht l hl w
    obtain ⟨a, b⟩ := hlt ht
    by_cases hd : 1 ≤ d
    · obtain ⟨l', l1, l2⟩ := h3 d e (mem_curlEnts.2 ⟨hd, a, b⟩)
      rw [hl, Option.some.injEq] at l1
      subst l1
      rw [block_zero l2]
      exact ⟨fun h _ => h, fun h => h hd⟩
    · have := hids.2.2.2.2.1 d e (fun h => hd (mem_curlEnts.1 h).1) ⟨t, ht⟩
      rw [hl, Option.some.injEq] at this
      subst this
      exact ⟨fun _ h => absurd h hd, fun _ => by simp⟩
  have hsubd : ∀ {d e t d' e' t'}, HasEntity s.topo d e t → HasEntity s.topo d' e' t' → (∀ a ∈ t', a ∈ t) → d' ≤ d := by
    intro d e t d' e' t' h h' hsub
    obtain ⟨n1, n2, -⟩ := hs.2.1.entity _ _ _ h
    obtain ⟨m1, m2, -⟩ := hs.2.1.entity _ _ _ h'
    have := (m1.subperm hsub).length_le
    omega
  have hfwd : ∀ d, 1 ≤ d → d < D → ∀ e t, HasEntity s.topo d e t → ∀ w, V w →
      (∀ d' e' t', HasEntity s.topo d' e' t' → (∀ a ∈ t', a ∈ t) → 1 ≤ d' → ∀ l ∈ blk (d', e'), l.onField (fieldOf w) = 0) →
      TangOn s t w := by
    intro d
    induction d using Nat.strong_induction_on with
    | _ d ih =>
      intro hd hdD e t ht w hw hz
      refine ((hblk d e hd hdD (hlt ht).2).2.2 t ht w hw ?_).1 (hz d e t ht (fun a ha => ha) hd)
      intro d' e' t' h' hd' hlt' hsub
      exact ih d' hlt' hd' (by omega) e' t' h' w hw fun d'' e'' t'' h'' hs'' => hz d'' e'' t'' h'' fun a ha => hsub a (hs'' a ha)
  refine ⟨⟨h1, h2, ?_, ?_⟩, ?_, ?_, ?_⟩
  · intro d e t ht
    obtain ⟨a, b⟩ := hlt ht
    by_cases hd : d = 0
    · exact ⟨[], hids.2.2.2.2.1 d e (fun h => by have := (mem_curlEnts.1 h).1; omega) ⟨t, ht⟩, by rw [if_pos hd]; rfl⟩
    · obtain ⟨l', l1, l2⟩ := h3 d e (mem_curlEnts.2 ⟨by omega, a, b⟩)
      refine ⟨l', l1, ?_⟩
      have := congrArg List.length l2
      rw [List.length_map, List.length_map, hlen _ (mem_curlEnts.2 ⟨by omega, a, b⟩)] at this
      rw [if_neg hd, this]
  · intro d e t ht hd hdD w hw
    constructor
    · intro h
      refine hfwd d hd hdD e t ht w hw fun d' e' t' h' hsub hd' => ?_
      obtain ⟨l, l1, -⟩ := h3 d' e' (mem_curlEnts.2 ⟨hd', (hlt h').1, (hlt h').2⟩)
      exact (hz d' e' t' h' l l1 w).1 (h d' e' t' l h' hsub l1) hd'
    · intro h d' e' t' l h' hsub hl
      rw [hz d' e' t' h' l hl]
      intro hd'
      have hd'd := hsubd ht h' hsub
      have hT : ∀ {d'' e'' t''}, HasEntity s.topo d'' e'' t'' → (∀ a ∈ t'', a ∈ t) → TangOn s t'' w := fun {d'' e'' t''} h'' hs'' =>
        h.mono (hs.2.1.entity _ _ _ ht).1 (hs.2.1.entity _ _ _ h'').1 hs''
      exact ((hblk d' e' hd' (by omega) (hlt h').2).2.2 t' h' w hw fun d'' e'' t'' h'' _ _ hs'' =>
        hT h'' fun a ha => hsub a (hs'' a ha)).2 (hT h' hsub)
  · intro l hl
    rw [hids.1] at hl
    obtain ⟨⟨d, e⟩, hx, hl⟩ := List.mem_flatMap.1 hl
    obtain ⟨a, b, c⟩ := mem_curlEnts.1 hx
    rcases Nat.lt_or_eq_of_le b with hb | rfl
    · exact (hblk d e a hb c).2.1 l hl
    · rw [Nat.choose_self, Nat.lt_one_iff] at c
      subst c; exact hcp l hl
  · rw [hids.1, List.length_flatMap]
    have : (curlEnts D).map (fun x => (blk x).length) = (curlEnts D).map fun x => n x.1 := List.map_congr_left hlen
    rw [this]
    unfold curlEnts
    rw [List.map_flatMap, List.flatMap_def, List.sum_flatten, List.map_map]
    congr 1
    refine List.map_congr_left fun d _ => ?_
    simp only [Function.comp_apply, entsOf, List.map_map]
    rw [show ((fun x : ℕ × ℕ => n x.1) ∘ fun i => (d, i)) = fun _ => n d from rfl]
    simp
  · intro w hw hzz
    have hmem : ∀ d e, (d, e) ∈ curlEnts D → ∀ l ∈ blk (d, e), l.onField (fieldOf w) = 0 := fun d e hx l hl => by
      apply hzz
      rw [hids.1]
      exact List.mem_flatMap.2 ⟨_, hx, hl⟩
    refine hcz w hw ?_ (hmem D 0 (mem_curlEnts.2 ⟨by omega, le_rfl, by simp⟩))
    intro e t ht
    exact hfwd (D - 1) (by omega) (by omega) e t ht w hw fun d' e' t' h' _ hd' =>
      hmem d' e' (mem_curlEnts.2 ⟨hd', (hlt h').1, (hlt h').2⟩)

end
end FIAT
