/-
C75: `FlattenedDimensions` of a continuous element.
-/
import Verif.Props.LagrangeC0

namespace FIAT
open MvPolynomial

theorem intMap_get {β : Type} (L : Dict ℕ β) (d : ℕ) :
    Dict.get? (L.map fun q => (Key.int q.1, q.2)) (.int d) = Dict.get? L d := by
  induction L with
  | nil => rfl
  | cons q L ih =>
    rw [List.map_cons, Dict.get?_cons, Dict.get?_cons]
    by_cases h : q.1 = d
    · simp [h]
    · rw [if_neg (by simpa using h), if_neg h]; exact ih

theorem intMap_key {β : Type} {L : Dict ℕ β} {k : Key} {m : β} (h : Dict.get? (L.map fun q => (Key.int q.1, q.2)) k = some m) :
    ∃ d, k = .int d := by
  obtain ⟨q, -, hq⟩ := List.mem_map.1 (Dict.mem_of_get? h)
  cases hq
  exact ⟨_, rfl⟩

theorem flatIds_at (ids : EntityIds Key) (d i : ℕ) : (flatIds ids).at? (.int d) i = flatAt ids d i := by
  unfold EntityIds.at? flatIds flatAt
  rw [intMap_get]

theorem flatIds_wf (ids : EntityIds Key) : Topology.WF (flatIds ids) ∧ InOrder (flatIds ids) := by
  have hk : Dict.WF (flattenEntities ids) := by
    unfold flattenEntities Dict.WF Dict.keys
    rw [List.map_map]
    have : ∀ (L : List (Key × Dict ℕ (List ℕ))) (acc : Dict ℕ (List (List ℕ))), Dict.WF acc →
        Dict.WF (L.foldl (fun (acc : Dict ℕ (List (List ℕ))) p => acc.appendAt p.1.tupleSum ((sortedItems p.2).map Prod.snd)) acc) := by
      intro L
      induction L with
      | nil => exact fun _ h => h
      | cons p L ih => exact fun acc h => ih _ (Dict.WF.put h _ _)
    exact this _ [] List.nodup_nil
  refine ⟨⟨?_, ?_⟩, ?_⟩
  · unfold Dict.WF Dict.keys flatIds
    rw [List.map_map]
    have : (Prod.fst ∘ fun p : ℕ × Dict ℕ (List ℕ) => (Key.int p.1, p.2)) = Key.int ∘ Prod.fst := rfl
    rw [this, ← List.map_map]
    exact List.Nodup.map (fun a b h => by simpa using h) hk
  · intro p hp
    obtain ⟨q, hq, rfl⟩ := List.mem_map.1 hp
    obtain ⟨r, -, rfl⟩ := List.mem_map.1 hq
    exact enumDict_wf _
  · intro d es hm
    obtain ⟨q, hq, he⟩ := List.mem_map.1 hm
    cases he
    obtain ⟨r, -, rfl⟩ := List.mem_map.1 hq
    simp only
    rw [keys_enumDict, length_enumDict]

/-- The map from a reference entity of the flat cell. -/
def flatEmb {n : ℕ} (t : Topology Key) (f : Key → ℕ → List ℝ → Fin n → ℝ) : Key → ℕ → List ℝ → Fin n → ℝ
  | .int d, i, p => (Dict.get? (computeUnflatteningMap t) (d, i)).elim 0 fun pe => f pe.1 pe.2 p
  | _, _, _ => 0

/-- `c` is the flat version of the product cell `c'`. -/
structure IsFlatCell (c' c : CellData ℝ) : Prop where
  verts : c.verts = c'.verts
  flat : IsFlatOf c'.topo c.topo

section
variable {E : TabElem ℝ ℝ} {ids : EntityIds Key} {nodes : List (List ℝ)} {φ : ℕ → MvPolynomial (Fin E.sd) ℝ}
    {emb : Key → ℕ → List ℝ → Fin E.sd → ℝ}

/-- Entities of the flat cell and of the product cell. -/
theorem flat_entities (hE : IsC0Element E ids nodes φ emb) {c : CellData ℝ} (hc : IsFlatCell E.cell c) (d i : ℕ) (v : List ℕ) :
    HasEntity c.topo (.int d) i v ↔
      ∃ D e, Dict.get? (computeUnflatteningMap E.cell.topo) (d, i) = some (D, e) ∧ HasEntity E.cell.topo D e v := by
  rw [hc.flat.same]
  constructor
  · intro h
    have h1 := (unflatten_domain E.cell.topo hc.flat.sorted d i).1 (by rw [h]; rfl)
    obtain ⟨⟨D, e⟩, h2⟩ := Option.isSome_iff_exists.1 h1
    obtain ⟨-, m, v', h4, h5, h6⟩ := unflatten_sound E.cell.topo hE.good.wf.1 hE.good.wf.2 hc.flat.sorted d i D e h2
    rw [h, Option.some.injEq] at h6
    exact ⟨D, e, h2, m, h4, by rw [h6]; exact h5⟩
  · rintro ⟨D, e, h2, m, h3, h3'⟩
    obtain ⟨-, m', v', h4, h5, h6⟩ := unflatten_sound E.cell.topo hE.good.wf.1 hE.good.wf.2 hc.flat.sorted d i D e h2
    rw [h6, Option.some.injEq]
    rw [h3, Option.some.injEq] at h4
    subst h4
    rw [h3', Option.some.injEq] at h5
    exact h5.symm

/-- The dofs of the flat element and of the product element. -/
theorem flat_dofs (hE : IsC0Element E ids nodes φ emb) {c : CellData ℝ} (hc : IsFlatCell E.cell c) (d i : ℕ) (l : List ℕ) :
    (flatIds ids).at? (.int d) i = some l ↔
      ∃ D e, Dict.get? (computeUnflatteningMap E.cell.topo) (d, i) = some (D, e) ∧ ids.at? D e = some l := by
  obtain ⟨hmap, hsrt⟩ := unflatten_same hE.good.wf hc.flat.sorted hE.good.numbered hE.wf hE.order hE.same
  rw [flatIds_at, ← hmap]
  constructor
  · intro h
    have h1 := (unflatten_domain ids hsrt d i).1 (by rw [h]; rfl)
    obtain ⟨⟨D, e⟩, h2⟩ := Option.isSome_iff_exists.1 h1
    obtain ⟨-, m, v', h4, h5, h6⟩ := unflatten_sound ids hE.wf.1 hE.wf.2 hsrt d i D e h2
    rw [h, Option.some.injEq] at h6
    exact ⟨D, e, h2, by unfold EntityIds.at?; rw [h4, h6]; exact h5⟩
  · rintro ⟨D, e, h2, h3⟩
    obtain ⟨-, m', v', h4, h5, h6⟩ := unflatten_sound ids hE.wf.1 hE.wf.2 hsrt d i D e h2
    rw [h6, Option.some.injEq]
    unfold EntityIds.at? at h3
    rw [h4, Option.bind_some, h5, Option.some.injEq] at h3
    exact h3

end

/-- C75: flattening a continuous element on a product of intervals gives a continuous element on the quadrilateral or hexahedron, with
the same nodes and basis functions. -/
theorem flatten_c0 {E : TabElem ℝ ℝ} {ids : EntityIds Key} {nodes : List (List ℝ)} {φ : ℕ → MvPolynomial (Fin E.sd) ℝ}
    {emb : Key → ℕ → List ℝ → Fin E.sd → ℝ} (hE : IsC0Element E ids nodes φ emb) {c : CellData ℝ} (hc : IsFlatCell E.cell c)
    (gc : GoodCell c) : IsC0Element (flatOf E c) (flatIds ids) nodes φ (flatEmb E.cell.topo emb) := by
  set M := computeUnflatteningMap E.cell.topo with hM
  have ent : ∀ d i v, HasEntity c.topo (.int d) i v ↔ ∃ D e, Dict.get? M (d, i) = some (D, e) ∧ HasEntity E.cell.topo D e v :=
    flat_entities hE hc
  have dof : ∀ d i l, (flatIds ids).at? (.int d) i = some l ↔ ∃ D e, Dict.get? M (d, i) = some (D, e) ∧ ids.at? D e = some l :=
    flat_dofs hE hc
  have bij : ∀ D e v, HasEntity E.cell.topo D e v → ∃! i, Dict.get? M (D.tupleSum, i) = some (D, e) := by
    rintro D e v ⟨m, h1, h2⟩
    exact unflatten_bijective E.cell.topo hE.good.wf.1 hE.good.wf.2 D e m v h1 h2
  have msum : ∀ {d i D e}, Dict.get? M (d, i) = some (D, e) → d = D.tupleSum := fun h =>
    (unflatten_sound E.cell.topo hE.good.wf.1 hE.good.wf.2 hc.flat.sorted _ _ _ _ h).1
  have dkey : ∀ {k i l}, (flatIds ids).at? k i = some l → ∃ d, k = .int d := by
    intro k i l h
    obtain ⟨m, h1, -⟩ := Option.bind_eq_some_iff.1 h
    exact intMap_key h1
  have hclo : ∀ t i, InClosure c.topo (flatIds ids) t i ↔ InClosure E.cell.topo ids t i := by
    intro t i
    constructor
    · rintro ⟨k, j, v, l, h1, h2, h3, h4⟩
      obtain ⟨d, rfl⟩ := dkey h3
      obtain ⟨D, e, q1, q2⟩ := (ent _ _ _).1 h1
      obtain ⟨D', e', q3, q4⟩ := (dof _ _ _).1 h3
      rw [q1, Option.some.injEq, Prod.mk.injEq] at q3
      obtain ⟨rfl, rfl⟩ := q3
      exact ⟨D, e, v, l, q2, h2, q4, h4⟩
    · rintro ⟨D, e, v, l, h1, h2, h3, h4⟩
      obtain ⟨j, hj, -⟩ := bij D e v h1
      exact ⟨.int D.tupleSum, j, v, l, (ent _ _ _).2 ⟨D, e, hj, h1⟩, h2, (dof _ _ _).2 ⟨D, e, hj, h3⟩, h4⟩
  have hhull : ∀ t (x : Fin E.sd → ℝ), OnHull c t x ↔ OnHull E.cell t x := by
    intro t x
    have : c.coord = E.cell.coord := by
      funext a i
      unfold CellData.coord
      rw [hc.verts]
    unfold OnHull
    rw [this]
  refine ⟨gc, ?_, hE.scalar, hE.sd_pos, (flatIds_wf ids).1, (flatIds_wf ids).2, ?_, ⟨?_, ?_⟩, hE.nodes_len, hE.nodal, ?_, ?_, ?_, ?_⟩
  · intro v hv
    change v ∈ c.verts at hv
    rw [hc.verts] at hv
    exact hE.dim v hv
  · intro k i
    constructor
    · intro h
      obtain ⟨l, hl⟩ := Option.isSome_iff_exists.1 h
      obtain ⟨d, rfl⟩ := dkey hl
      obtain ⟨D, e, q1, q2⟩ := (dof _ _ _).1 hl
      obtain ⟨v, hv⟩ := (hE.same D e).1 (by rw [q2]; rfl)
      exact ⟨v, (ent _ _ _).2 ⟨D, e, q1, hv⟩⟩
    · rintro ⟨v, hv⟩
      obtain ⟨d, rfl⟩ := hc.flat.ints _ _ _ hv
      obtain ⟨D, e, q1, q2⟩ := (ent _ _ _).1 hv
      obtain ⟨l, hl⟩ := Option.isSome_iff_exists.1 ((hE.same D e).2 ⟨v, q2⟩)
      rw [(dof d i l).2 ⟨D, e, q1, hl⟩]
      rfl
  · intro k i l hl
    obtain ⟨d, rfl⟩ := dkey hl
    obtain ⟨D, e, -, q2⟩ := (dof _ _ _).1 hl
    exact hE.part.1 _ _ _ q2
  · intro x hx
    obtain ⟨⟨D, e⟩, ⟨l, h1, h2⟩, h3⟩ := hE.part.2 x hx
    obtain ⟨v, hv⟩ := (hE.same D e).1 (by rw [h1]; rfl)
    obtain ⟨j, hj, hj'⟩ := bij D e v hv
    refine ⟨(.int D.tupleSum, j), ⟨l, (dof _ _ _).2 ⟨D, e, hj, h1⟩, h2⟩, ?_⟩
    rintro ⟨k, j'⟩ ⟨l', h4, h5⟩
    obtain ⟨d, rfl⟩ := dkey h4
    obtain ⟨D', e', q1, q2⟩ := (dof _ _ _).1 h4
    have h6 := h3 (D', e') ⟨l', q2, h5⟩
    simp only [Prod.mk.injEq] at h6
    obtain ⟨rfl, rfl⟩ := h6
    have h7 := msum q1
    subst h7
    rw [hj' j' q1]
  · intro k i t l ht hl x hx p hp
    obtain ⟨d, rfl⟩ := hc.flat.ints _ _ _ ht
    obtain ⟨D, e, q1, q2⟩ := (ent _ _ _).1 ht
    obtain ⟨D', e', q3, q4⟩ := (dof _ _ _).1 hl
    rw [q1, Option.some.injEq, Prod.mk.injEq] at q3
    obtain ⟨rfl, rfl⟩ := q3
    exact (hhull _ _).2 (hE.node_on D e t l q2 q4 x hx p hp)
  · intro k i t ht u
    obtain ⟨d, rfl⟩ := hc.flat.ints _ _ _ ht
    obtain ⟨D, e, q1, q2⟩ := (ent _ _ _).1 ht
    change (∀ x : Fin E.sd → ℝ, OnHull c t x → ∑ i ∈ Finset.range E.dim, u i * eval x (φ i) = 0) ↔
      ∀ i, InClosure c.topo (flatIds ids) t i → u i = 0
    simp only [hhull, hclo]
    exact hE.trace D e t q2 u
  · intro k i t p ht
    obtain ⟨d, rfl⟩ := hc.flat.ints _ _ _ ht
    obtain ⟨D, e, q1, q2⟩ := (ent _ _ _).1 ht
    refine (hhull _ _).2 ?_
    change OnHull E.cell t ((Dict.get? M (d, i)).elim 0 fun pe => emb pe.1 pe.2 p)
    rw [q1]
    exact hE.emb_on D e t p q2
  · intro k i t ht order pts hpts
    obtain ⟨d, rfl⟩ := hc.flat.ints _ _ _ ht
    obtain ⟨D, e, q1, q2⟩ := (ent _ _ _).1 ht
    have h7 := msum q1
    obtain ⟨T, t1, t2, t3⟩ := hE.tab D e t q2 order pts (fun p hp => by rw [hpts p hp, ← h7]; rfl)
    refine ⟨T, ?_, t2, fun a arr ha x hx j p hp => ?_⟩
    · change (Dict.get? M (d, i)).bind (fun pe => E.tabulate order pts pe) = some T
      rw [q1]
      exact t1
    · rw [t3 a arr ha x hx j p hp]
      change _ = eval ((Dict.get? M (d, i)).elim 0 fun pe => emb pe.1 pe.2 p) _
      rw [q1]
      rfl

end FIAT
