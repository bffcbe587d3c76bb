/-
C07 (tensor-product topology) and C08 (flattening), and the instances of C05/C06 for the shipped cells.
-/
import Verif.Lemmas.Product
import Verif.Props.Cell

namespace FIAT

/-! ### Specification of C07 -/

/-- An entity of one factor: dimension, number, vertex tuple. -/
structure Factor where
  dim : Key
  ent : ℕ
  vs : List ℕ

/-- The entities of a dimension are numbered `0, 1, ..., n-1`. -/
def Numbered (t : Topology Key) : Prop :=
  ∀ d es, (d, es) ∈ t → pySorted (Dict.keys es) = List.range es.length

/-- Number of entities of dimension `d`. -/
def numEntities (t : Topology Key) (d : Key) : ℕ := ((t.get? d).getD []).length

/-- What every cell passed to `TensorProductCell` satisfies: dictionaries, numbering, vertex numbers
refer to existing vertices, entities are nonempty. -/
structure GoodCell {α : Type} (c : CellData α) : Prop where
  wf : c.topo.WF
  numbered : Numbered c.topo
  vertex_lt : ∀ d e v, HasEntity c.topo d e v → ∀ x ∈ v, x < c.verts.length
  nonempty : ∀ d e v, HasEntity c.topo d e v → v ≠ []
  mono : DimMonotone c.topo

/-- `F` picks one entity in each cell. -/
def IsFactors {α : Type} (cells : List (CellData α)) (F : List Factor) : Prop :=
  List.Forall₂ (fun c f => HasEntity c.topo f.dim f.ent f.vs) cells F

/-- Vertex counts of the factors. -/
def vshape {α : Type} (cells : List (CellData α)) : List ℕ := cells.map fun c => c.verts.length

/-- Entity counts of the factors for the dimensions of `F`. -/
def eshape {α : Type} (cells : List (CellData α)) (F : List Factor) : List ℕ :=
  List.zipWith (fun c f => numEntities c.topo f.dim) cells F

/-- The vertex tuple of a product entity. -/
def productVerts {α : Type} (cells : List (CellData α)) (F : List Factor) : List ℕ :=
  (pyProduct (F.map Factor.vs)).map fun vs => ravel vs (vshape cells)

variable {α : Type}

/-! ### Vertices -/

/-- C07: the vertices of the product are the concatenations of factor vertices, vertex
`(i₁,...,iₖ)` being number `ravel (i₁,...,iₖ)` (row-major, i.e. lexicographic order). -/
theorem tensor_vertices (cells : List (CellData α)) (ps : List (ℕ × List α))
    (h : List.Forall₂ (fun (p : ℕ × List α) (c : CellData α) => c.verts[p.1]? = some p.2) ps cells) :
    (tensorProductCell cells).verts[ravel (ps.map Prod.fst) (vshape cells)]?
      = some (ps.map Prod.snd).flatten := by
  have := getElem?_pyProduct (ps := ps) (ls := cells.map CellData.verts) (by
    rw [List.forall₂_map_right_iff]; exact h)
  rw [List.map_map] at this
  simp only [tensorProductCell, List.getElem?_map]
  have e : vshape cells = cells.map (List.length ∘ CellData.verts) := rfl
  rw [e, this]; rfl

/-- C07: and there are no other vertices. -/
theorem tensor_vertices_length (cells : List (CellData α)) :
    (tensorProductCell cells).verts.length = (vshape cells).prod := by
  simp only [tensorProductCell, List.length_map, length_pyProduct, List.map_map]
  rfl

/-! ### Topology -/

private theorem tensor_topo_eq (cells : List (CellData α)) (hwf : ∀ c ∈ cells, c.topo.WF) :
    (tensorProductCell cells).topo =
      (pyProduct (cells.map fun c => Dict.keys c.topo)).map fun dim =>
        (Key.tup dim, productEntities (vshape cells)
          (List.zipWith (fun (c : CellData α) d => (c.topo.get? d).getD []) cells dim)) := by
  have hnd : (pyProduct (cells.map fun c => Dict.keys c.topo)).Nodup := by
    apply pyProduct_nodup
    intro l hl
    obtain ⟨c, hc, rfl⟩ := List.mem_map.1 hl
    exact (hwf c hc).1
  simp only [tensorProductCell]
  rw [foldl_put_pairs _ Key.tup _ _ (hnd.map Key.tup_injective) (by simp [Dict.keys])]
  rfl

private theorem tensor_get (cells : List (CellData α)) (hwf : ∀ c ∈ cells, c.topo.WF)
    (F : List Factor) (hF : List.Forall₂ (fun c f => f.dim ∈ Dict.keys c.topo) cells F) :
    (tensorProductCell cells).topo.get? (Key.tup (F.map Factor.dim)) =
      some (productEntities (vshape cells)
        (List.zipWith (fun (c : CellData α) f => (c.topo.get? f.dim).getD []) cells F)) := by
  have hnd : (pyProduct (cells.map fun c => Dict.keys c.topo)).Nodup := by
    apply pyProduct_nodup
    intro l hl
    obtain ⟨c, hc, rfl⟩ := List.mem_map.1 hl
    exact (hwf c hc).1
  rw [tensor_topo_eq cells hwf]
  apply Dict.get?_of_mem
  · simp only [Dict.WF, Dict.keys, List.map_map]
    exact hnd.map Key.tup_injective
  · rw [List.mem_map]
    refine ⟨F.map Factor.dim, mem_pyProduct.2 ?_, ?_⟩
    · rw [List.forall₂_map_left_iff, List.forall₂_map_right_iff]
      exact hF.flip
    · rw [List.zipWith_map_right]

private theorem topds_wf (cells : List (CellData α)) (hwf : ∀ c ∈ cells, c.topo.WF)
    (dims : List Key) :
    ∀ t ∈ List.zipWith (fun (c : CellData α) d => (c.topo.get? d).getD []) cells dims, Dict.WF t := by
  intro t ht
  obtain ⟨c, hc, d, -, rfl⟩ : ∃ c ∈ cells, ∃ d ∈ dims, (c.topo.get? d).getD [] = t := by
    rw [← List.map_uncurry_zip_eq_zipWith] at ht
    obtain ⟨⟨c, d⟩, h1, h2⟩ := List.mem_map.1 ht
    obtain ⟨h3, h4⟩ := List.of_mem_zip h1
    exact ⟨c, h3, d, h4, h2⟩
  rcases h : c.topo.get? d with _ | es
  · simp [Dict.WF, Dict.keys]
  · exact (hwf c hc).2 _ (Dict.mem_of_get? h)


private theorem factor_lt {c : CellData α} (hc : GoodCell c) {f : Factor}
    (hf : HasEntity c.topo f.dim f.ent f.vs) :
    (pySorted (Dict.keys ((c.topo.get? f.dim).getD [])))[f.ent]? = some f.ent ∧
      f.ent < numEntities c.topo f.dim := by
  obtain ⟨es, h1, h2⟩ := hf
  have hnum := hc.numbered _ _ (Dict.mem_of_get? h1)
  have hmem : f.ent ∈ Dict.keys es := List.mem_map.2 ⟨_, Dict.mem_of_get? h2, rfl⟩
  rw [← mem_pySorted, hnum, List.mem_range] at hmem
  rw [numEntities, h1, Option.getD_some, hnum]
  exact ⟨by rw [List.getElem?_range hmem], hmem⟩

private theorem tensor_entity_aux (cells : List (CellData α)) (hc : ∀ c ∈ cells, GoodCell c)
    (F : List Factor) (hF : IsFactors cells F) :
    let topds := List.zipWith (fun (c : CellData α) f => (c.topo.get? f.dim).getD []) cells F
    List.Forall₂ (fun (p : ℕ × ℕ) (l : List ℕ) => l[p.1]? = some p.2)
      (F.map fun f => (f.ent, f.ent)) (topds.map fun t => pySorted (Dict.keys t)) ∧
    (topds.map fun t => pySorted (Dict.keys t)).map List.length = eshape cells F ∧
    List.zipWith (fun (topd : Dict ℕ (List ℕ)) e => (topd.get? e).getD []) topds
      (F.map Factor.ent) = F.map Factor.vs := by
  induction hF with
  | nil => exact ⟨.nil, rfl, rfl⟩
  | @cons c f cells F h hF ih =>
    obtain ⟨i1, i2, i3⟩ := ih fun c hc' => hc c (by simp [hc'])
    have h1 := factor_lt (hc c (by simp)) h
    refine ⟨?_, ?_, ?_⟩
    · simp only [List.zipWith_cons_cons, List.map_cons]
      exact List.Forall₂.cons h1.1 i1
    · simp only [eshape, List.zipWith_cons_cons, List.map_cons] at i2 ⊢
      rw [i2]
      congr 1
      simp [pySorted, Dict.keys, numEntities]
    · simp only [List.zipWith_cons_cons, List.map_cons]
      rw [i3]
      obtain ⟨es, h1, h2⟩ := h
      rw [h1, Option.getD_some, h2]; rfl

/-- C07: for every choice of one entity per factor, the product cell has their product as the entity of
dimension `(d₁,...,dₖ)` whose number is obtained by ravelling the factor numbers in row-major order. -/
theorem tensor_entity (cells : List (CellData α)) (hc : ∀ c ∈ cells, GoodCell c)
    (F : List Factor) (hF : IsFactors cells F) :
    HasEntity (tensorProductCell cells).topo (Key.tup (F.map Factor.dim))
      (ravel (F.map Factor.ent) (eshape cells F)) (productVerts cells F) := by
  have hwf : ∀ c ∈ cells, c.topo.WF := fun c h => (hc c h).wf
  have hdims : List.Forall₂ (fun c f => f.dim ∈ Dict.keys c.topo) cells F :=
    hF.imp fun c f h => by
      obtain ⟨es, h1, _⟩ := h
      exact List.mem_map.2 ⟨_, Dict.mem_of_get? h1, rfl⟩
  refine ⟨_, tensor_get cells hwf F hdims, ?_⟩
  have hw := topds_wf cells hwf (F.map Factor.dim)
  rw [List.zipWith_map_right] at hw
  obtain ⟨h1, h2, h3⟩ := tensor_entity_aux cells hc F hF
  rw [productEntities_eq _ _ hw, get?_enumDict, List.getElem?_map]
  have := getElem?_pyProduct h1
  rw [h2, List.map_map, List.map_map] at this
  have e1 : (F.map (Prod.fst ∘ fun f : Factor => (f.ent, f.ent))) = F.map Factor.ent := rfl
  have e2 : (F.map (Prod.snd ∘ fun f : Factor => (f.ent, f.ent))) = F.map Factor.ent := rfl
  rw [e1, e2] at this
  rw [this, Option.map_some, h3]
  rfl

private theorem exists_factors (cells : List (CellData α)) (hc : ∀ c ∈ cells, GoodCell c)
    (dims : List Key) (hd : List.Forall₂ (fun d c => d ∈ Dict.keys (CellData.topo c)) dims cells)
    (es : List ℕ)
    (he : List.Forall₂ (· < ·) es (List.zipWith (fun c d => numEntities c.topo d) cells dims)) :
    ∃ F, IsFactors cells F ∧ F.map Factor.dim = dims ∧ F.map Factor.ent = es := by
  induction hd generalizing es with
  | nil =>
    cases he
    exact ⟨[], .nil, rfl, rfl⟩
  | @cons d c dims cells hd _ ih =>
    rw [List.zipWith_cons_cons] at he
    cases he with
    | @cons e _ es _ he hes =>
      obtain ⟨F, h1, h2, h3⟩ := ih (fun c hc' => hc c (by simp [hc'])) es hes
      have hc0 := hc c (by simp)
      rw [← Dict.get?_isSome_iff, Option.isSome_iff_exists] at hd
      obtain ⟨ed, hed⟩ := hd
      have hnum := hc0.numbered _ _ (Dict.mem_of_get? hed)
      rw [numEntities, hed, Option.getD_some, ← List.mem_range, ← hnum, mem_pySorted,
        ← Dict.get?_isSome_iff, Option.isSome_iff_exists] at he
      obtain ⟨v, hv⟩ := he
      exact ⟨⟨d, e, v⟩ :: F, List.Forall₂.cons ⟨ed, hed, hv⟩ h1, by simp [h2], by simp [h3]⟩

/-- C07: every entity of the product cell is the product of factor entities, the factor numbers being
the row-major unravelling of its number. -/
theorem tensor_entity_conv (cells : List (CellData α)) (hc : ∀ c ∈ cells, GoodCell c)
    (D : Key) (i : ℕ) (vs : List ℕ) (h : HasEntity (tensorProductCell cells).topo D i vs) :
    ∃ F, IsFactors cells F ∧ D = Key.tup (F.map Factor.dim) ∧
      F.map Factor.ent = unravel i (eshape cells F) ∧
      i = ravel (F.map Factor.ent) (eshape cells F) ∧ vs = productVerts cells F := by
  have hwf : ∀ c ∈ cells, c.topo.WF := fun c h => (hc c h).wf
  obtain ⟨ent, hD, hv⟩ := h
  have hmem := Dict.mem_of_get? hD
  rw [tensor_topo_eq cells hwf, List.mem_map] at hmem
  obtain ⟨dims, hdims, heq⟩ := hmem
  simp only [Prod.mk.injEq] at heq
  obtain ⟨rfl, rfl⟩ := heq
  rw [mem_pyProduct, List.forall₂_map_right_iff] at hdims
  set topds := List.zipWith (fun (c : CellData α) d => (c.topo.get? d).getD []) cells dims with htop
  have hlen : (topds.map fun t => pySorted (Dict.keys t)).map List.length
      = List.zipWith (fun c d => numEntities c.topo d) cells dims := by
    rw [htop, List.map_map, List.map_zipWith]
    congr 1
    funext c d
    simp [pySorted, Dict.keys, numEntities]
  have hi : i < (List.zipWith (fun c d => numEntities c.topo d) cells dims).prod := by
    have hw := topds_wf cells hwf dims
    rw [productEntities_eq _ _ hw, get?_enumDict, List.getElem?_map] at hv
    rcases hx : (pyProduct (topds.map fun t => pySorted (Dict.keys t)))[i]? with _ | x
    · rw [hx] at hv; simp at hv
    · obtain ⟨h1, _⟩ := List.getElem?_eq_some_iff.1 hx
      rw [length_pyProduct, hlen] at h1
      exact h1
  obtain ⟨h1, h2⟩ := unravel_spec hi
  obtain ⟨F, hF, hFd, hFe⟩ := exists_factors cells hc dims hdims _ h1
  have hesh : eshape cells F = List.zipWith (fun c d => numEntities c.topo d) cells dims := by
    rw [eshape, ← hFd, List.zipWith_map_right]
  have hent := tensor_entity cells hc F hF
  rw [hFd, hFe, hesh, h2] at hent
  obtain ⟨ent', hD', hv'⟩ := hent
  rw [hD] at hD'
  obtain rfl := Option.some.inj hD'
  rw [hv] at hv'
  refine ⟨F, hF, by rw [hFd], by rw [hFe, hesh], by rw [hFe, hesh, h2], Option.some.inj hv'⟩

private theorem factors_lt (cells : List (CellData α)) (hc : ∀ c ∈ cells, GoodCell c)
    (F : List Factor) (hF : IsFactors cells F) {is : List ℕ}
    (h : List.Forall₂ (· ∈ ·) is (F.map Factor.vs)) : List.Forall₂ (· < ·) is (vshape cells) := by
  induction hF generalizing is with
  | nil => cases h; exact .nil
  | @cons c f cells F hcf _ ih =>
    rw [List.map_cons] at h
    cases h with
    | cons h1 h2 =>
      exact List.Forall₂.cons ((hc c (by simp)).vertex_lt _ _ _ hcf _ h1)
        (ih (fun c hc' => hc c (by simp [hc'])) h2)

/-- C07: a product vertex belongs to a product entity iff each factor vertex belongs to the factor
entity. -/
theorem tensor_vertex_mem (cells : List (CellData α)) (hc : ∀ c ∈ cells, GoodCell c)
    (F : List Factor) (hF : IsFactors cells F) (is : List ℕ)
    (his : List.Forall₂ (· < ·) is (vshape cells)) :
    ravel is (vshape cells) ∈ productVerts cells F ↔ List.Forall₂ (fun i f => i ∈ f.vs) is F := by
  simp only [productVerts, List.mem_map, mem_pyProduct]
  constructor
  · rintro ⟨js, hjs, he⟩
    have := ravel_injective (factors_lt cells hc F hF hjs) his he
    subst this
    rwa [List.forall₂_map_right_iff] at hjs
  · intro h
    exact ⟨is, by rwa [List.forall₂_map_right_iff], rfl⟩

/-! ### Tensor products of good cells are good: nesting, and C05/C06 on tensor-product cells -/

private theorem factors_subset (cells : List (CellData α)) (hc : ∀ c ∈ cells, GoodCell c)
    (F F' : List Factor) (hF : IsFactors cells F) (hF' : IsFactors cells F')
    (h : ∀ x ∈ productVerts cells F', x ∈ productVerts cells F) :
    List.Forall₂ (fun f' f => ∀ x ∈ Factor.vs f', x ∈ Factor.vs f) F' F := by
  -- pointwise statement on index tuples
  have hpt : ∀ is, List.Forall₂ (fun i f => i ∈ Factor.vs f) is F' →
      List.Forall₂ (fun i f => i ∈ Factor.vs f) is F := by
    intro is his
    have his' : List.Forall₂ (· ∈ ·) is (F'.map Factor.vs) := by
      rwa [List.forall₂_map_right_iff]
    have hlt := factors_lt cells hc F' hF' his'
    exact (tensor_vertex_mem cells hc F hF is hlt).1
      (h _ ((tensor_vertex_mem cells hc F' hF' is hlt).2 his))
  -- every entity is nonempty, so index tuples exist
  have hex : ∀ (cells : List (CellData α)), (∀ c ∈ cells, GoodCell c) → ∀ F', IsFactors cells F' →
      ∃ is, List.Forall₂ (fun i f => i ∈ Factor.vs f) is F' := by
    intro cells hc F' hF'
    induction hF' with
    | nil => exact ⟨[], .nil⟩
    | @cons c f cells F' hcf _ ih =>
      obtain ⟨is, his⟩ := ih fun c hc' => hc c (by simp [hc'])
      obtain ⟨i, hi⟩ := List.exists_mem_of_ne_nil _ ((hc c (by simp)).nonempty _ _ _ hcf)
      exact ⟨i :: is, .cons hi his⟩
  clear h
  induction hF generalizing F' with
  | nil => cases hF'; exact .nil
  | @cons c f cells F hcf hF ih =>
    cases hF' with
    | @cons _ f' _ F' hcf' hF'' =>
      have hc' : ∀ c ∈ cells, GoodCell c := fun c hc' => hc c (by simp [hc'])
      obtain ⟨is, his⟩ := hex cells hc' F' hF''
      obtain ⟨i, hi⟩ := List.exists_mem_of_ne_nil _ ((hc c (by simp)).nonempty _ _ _ hcf')
      refine List.Forall₂.cons ?_ (ih hc' F' hF'' ?_)
      · intro x hx
        cases hpt (x :: is) (.cons hx his) with
        | cons h1 _ => exact h1
      · intro js hjs
        cases hpt (i :: js) (.cons hi hjs) with
        | cons _ h2 => exact h2

/-- C06/C07: a tensor product of good cells is a good cell (so the statements C05-C08 apply to nested
tensor products too). -/
theorem tensor_good (cells : List (CellData α)) (hc : ∀ c ∈ cells, GoodCell c) :
    GoodCell (tensorProductCell cells) := by
  have hwf : ∀ c ∈ cells, c.topo.WF := fun c h => (hc c h).wf
  refine ⟨⟨?_, ?_⟩, ?_, ?_, ?_, ?_⟩
  · rw [tensor_topo_eq cells hwf]
    simp only [Dict.WF, Dict.keys, List.map_map]
    refine List.Nodup.map Key.tup_injective (pyProduct_nodup ?_)
    intro l hl
    obtain ⟨c, hc, rfl⟩ := List.mem_map.1 hl
    exact (hwf c hc).1
  · rw [tensor_topo_eq cells hwf]
    intro p hp
    obtain ⟨dims, _, rfl⟩ := List.mem_map.1 hp
    simp only
    rw [productEntities_eq _ _ (topds_wf cells hwf dims)]
    exact enumDict_wf _
  · intro d es hmem
    rw [tensor_topo_eq cells hwf] at hmem
    obtain ⟨dims, _, heq⟩ := List.mem_map.1 hmem
    simp only [Prod.mk.injEq] at heq
    obtain ⟨-, rfl⟩ := heq
    rw [productEntities_eq _ _ (topds_wf cells hwf dims), keys_enumDict, length_enumDict]
    exact pySorted_of_pairwise (List.pairwise_lt_range.imp fun h => h.le)
  · intro D i vs h x hx
    obtain ⟨F, hF, -, -, -, rfl⟩ := tensor_entity_conv cells hc D i vs h
    obtain ⟨is, his, rfl⟩ := List.mem_map.1 hx
    rw [tensor_vertices_length]
    exact ravel_lt (factors_lt cells hc F hF (mem_pyProduct.1 his))
  · intro D i vs h
    obtain ⟨F, hF, -, -, -, rfl⟩ := tensor_entity_conv cells hc D i vs h
    have : ∃ is, List.Forall₂ (· ∈ ·) is (F.map Factor.vs) := by
      clear h
      induction hF with
      | nil => exact ⟨[], .nil⟩
      | @cons c f cells F hcf _ ih =>
        obtain ⟨is, his⟩ := ih (fun c hc' => hc c (by simp [hc'])) (fun c hc' => hwf c (by simp [hc']))
        obtain ⟨i, hi⟩ := List.exists_mem_of_ne_nil _ ((hc c (by simp)).nonempty _ _ _ hcf)
        exact ⟨i :: is, .cons hi his⟩
    obtain ⟨is, his⟩ := this
    exact List.ne_nil_of_mem (List.mem_map.2 ⟨is, mem_pyProduct.2 his, rfl⟩)
  · intro D i vs D' i' vs' h h' hsub
    obtain ⟨F, hF, rfl, -, -, rfl⟩ := tensor_entity_conv cells hc D i vs h
    obtain ⟨F', hF', rfl, -, -, rfl⟩ := tensor_entity_conv cells hc D' i' vs' h'
    have hs := factors_subset cells hc F F' hF hF' hsub
    apply Key.tup_le_of_forall₂
    rw [List.forall₂_map_left_iff, List.forall₂_map_right_iff]
    clear hsub h h'
    induction hF generalizing F' with
    | nil => cases hF'; exact .nil
    | @cons c f cells F hcf hF ih =>
      cases hF' with
      | @cons _ f' _ F' hcf' hF'' =>
        cases hs with
        | cons h1 h2 =>
          exact List.Forall₂.cons ((hc c (by simp)).mono _ _ _ _ _ _ hcf hcf' h1)
            (ih (fun c hc' => hc c (by simp [hc'])) (fun c hc' => hwf c (by simp [hc'])) F' hF'' h2)


/-! ### The shipped cells -/

/-- Decidable form of `GoodCell`. -/
def goodB (nv : ℕ) (t : Topology Key) : Bool :=
  decide ((Dict.keys t).Nodup) && t.all (fun p =>
    decide ((Dict.keys p.2).Nodup) && decide (pySorted (Dict.keys p.2) = List.range p.2.length) &&
    p.2.all fun q => !q.2.isEmpty && q.2.all (fun x => decide (x < nv)) &&
      t.all fun p' => p'.2.all fun q' => !(q'.2.all fun x => q.2.contains x) || decide (p'.1 ≤ p.1))

theorem good_of_goodB {c : CellData α} (h : goodB c.verts.length c.topo = true) : GoodCell c := by
  simp only [goodB, Bool.and_eq_true, decide_eq_true_eq, List.all_eq_true] at h
  obtain ⟨h1, h2⟩ := h
  have hwf : c.topo.WF := ⟨h1, fun p hp => (h2 p hp).1.1⟩
  refine ⟨hwf, fun d es hm => (h2 _ hm).1.2, ?_, ?_, ?_⟩
  · intro d e v hv x hx
    obtain ⟨es, m1, m2⟩ := hv.mem
    exact ((h2 _ m1).2 _ m2).1.2 x hx
  · intro d e v hv he
    obtain ⟨es, m1, m2⟩ := hv.mem
    have := ((h2 _ m1).2 _ m2).1.1
    simp [he] at this
  · intro d e v d' e' v' hv hv' hsub
    obtain ⟨es, m1, m2⟩ := hv.mem
    obtain ⟨es', m1', m2'⟩ := hv'.mem
    have := ((h2 _ m1).2 _ m2).2 _ m1' _ m2'
    simp only [Bool.or_eq_true, Bool.not_eq_true', decide_eq_true_eq] at this
    rcases this with h | h
    · exfalso
      have h3 : (v'.all fun x => v.contains x) = true := by
        rw [List.all_eq_true]; intro x hx; simpa using hsub x hx
      rw [h3] at h; cases h
    · exact h

section shipped
set_option linter.unusedSectionVars false
variable [Zero α] [One α] [Neg α]

theorem good_point : GoodCell (pointCell : CellData α) := good_of_goodB rfl
theorem good_interval : GoodCell (ufcInterval : CellData α) := good_of_goodB rfl
theorem good_defaultLine : GoodCell (defaultLine : CellData α) := good_of_goodB rfl
theorem good_triangle : GoodCell (ufcTriangle : CellData α) := good_of_goodB rfl
theorem good_defaultTriangle : GoodCell (defaultTriangle : CellData α) := good_of_goodB rfl
theorem good_intrepidTriangle : GoodCell (intrepidTriangle : CellData α) := good_of_goodB rfl
theorem good_tetrahedron : GoodCell (ufcTetrahedron : CellData α) :=
  good_of_goodB rfl
theorem good_defaultTetrahedron : GoodCell (defaultTetrahedron : CellData α) :=
  good_of_goodB rfl
theorem good_intrepidTetrahedron : GoodCell (intrepidTetrahedron : CellData α) :=
  good_of_goodB rfl
theorem good_quadrilateral : GoodCell (ufcQuadrilateral : CellData α) := by
  have h : (ufcQuadrilateral : CellData α).topo = (ufcQuadrilateral : CellData ℤ).topo := rfl
  have h2 : goodB 4 (ufcQuadrilateral : CellData ℤ).topo = true := by decide +kernel
  refine good_of_goodB ?_
  rw [h]; exact h2
theorem good_hexahedron : GoodCell (ufcHexahedron : CellData α) := by
  have h : (ufcHexahedron : CellData α).topo = (ufcHexahedron : CellData ℤ).topo := rfl
  have h2 : goodB 8 (ufcHexahedron : CellData ℤ).topo = true := by decide +kernel
  refine good_of_goodB ?_
  rw [h]; exact h2
end shipped

/-- C06 for every shipped cell and every (nested) tensor product of shipped cells. -/
theorem entity_closure_good {c : CellData α} (hc : GoodCell c) {ids : EntityIds Key}
    (hcov : Covers c.topo ids) :
    ∃ cl, entityClosureIds c.topo ids = some cl ∧
      ∀ d e v, HasEntity c.topo d e v → ∃ l, cl.at? d e = some l ∧
        l.Pairwise (· ≤ ·) ∧ ∀ n, n ∈ l ↔ InClosure c.topo ids v n :=
  entity_closure_spec hc.wf hc.mono hcov

/-! ### C08 -/

/-- The order in which flattening visits the entities of flattened dimension `d`. -/
private def visits {β : Type} (t : Dict Key (Dict ℕ β)) (d : ℕ) : List ((Key × ℕ) × β) :=
  (sortedItems t).flatMap fun p => if p.1.tupleSum = d then p.2.map fun q => ((p.1, q.1), q.2) else []

private theorem flatten_fold {β : Type} (l : List (Key × Dict ℕ β)) (acc : Dict ℕ (List β)) (d : ℕ)
    (hs : ∀ p ∈ l, sortedItems p.2 = p.2) :
    ((l.foldl (fun (acc : Dict ℕ (List β)) p =>
      acc.appendAt p.1.tupleSum ((sortedItems p.2).map Prod.snd)) acc).get? d).getD [] =
    (acc.get? d).getD [] ++
      (l.flatMap fun p => if p.1.tupleSum = d then p.2.map Prod.snd else []) := by
  induction l generalizing acc with
  | nil => simp
  | cons p l ih =>
    rw [List.foldl_cons, ih _ fun p hp => hs p (by simp [hp]), Dict.getD_appendAt, hs p (by simp)]
    by_cases h : p.1.tupleSum = d
    · simp [h]
    · simp [h]

private theorem flatten_fold_keys {β : Type} (l : List (Key × Dict ℕ β)) (acc : Dict ℕ (List β))
    (d : ℕ) :
    d ∈ Dict.keys (l.foldl (fun (acc : Dict ℕ (List β)) p =>
      acc.appendAt p.1.tupleSum ((sortedItems p.2).map Prod.snd)) acc) ↔
    d ∈ Dict.keys acc ∨ ∃ p ∈ l, p.1.tupleSum = d := by
  induction l generalizing acc with
  | nil => simp
  | cons p l ih =>
    rw [List.foldl_cons, ih, Dict.appendAt, Dict.mem_keys_put]
    simp only [List.mem_cons, exists_eq_or_imp]
    constructor
    · rintro ((h | h) | h)
      · exact Or.inr (Or.inl h.symm)
      · exact Or.inl h
      · exact Or.inr (Or.inr h)
    · rintro (h | h | h)
      · exact Or.inl (Or.inr h)
      · exact Or.inl (Or.inl h.symm)
      · exact Or.inr h

/-- Value stored at flattened entity `(d, i)`. -/
def flatAt {β : Type} (t : Dict Key (Dict ℕ β)) (d i : ℕ) : Option β :=
  ((flattenEntities t).get? d).bind fun m => m.get? i

private theorem flatAt_eq {β : Type} (t : Dict Key (Dict ℕ β))
    (hs : ∀ p ∈ t, sortedItems p.2 = p.2) (d i : ℕ) :
    flatAt t d i = ((visits t d)[i]?).map Prod.snd := by
  have hs' : ∀ p ∈ sortedItems t, sortedItems p.2 = p.2 := fun p hp => hs p (mem_sortedItems.1 hp)
  have h1 := flatten_fold (sortedItems t) [] d hs'
  have h2 := flatten_fold_keys (sortedItems t) [] d
  set fl := (sortedItems t).foldl (fun (acc : Dict ℕ (List β)) p =>
      acc.appendAt p.1.tupleSum ((sortedItems p.2).map Prod.snd)) [] with hfl
  have h3 : (flattenEntities t).get? d = (fl.get? d).map enumDict := by
    unfold flattenEntities
    rw [← hfl]
    exact Dict.get?_map fl (fun _ l => enumDict l) d
  have h4 : ((visits t d).map Prod.snd) =
      (sortedItems t).flatMap fun p => if p.1.tupleSum = d then p.2.map Prod.snd else [] := by
    rw [visits, List.map_flatMap]
    congr 1
    funext p
    split_ifs
    · rw [List.map_map]; rfl
    · rfl
  rw [flatAt, h3, ← List.getElem?_map, h4]
  simp only [Dict.get?_nil, Option.getD_none, List.nil_append] at h1
  rw [← h1]
  rcases fl.get? d with _ | l
  · simp
  · simp [get?_enumDict]

/-- State reached by the unflattening loop: `done` lists the visited entities of each flattened
dimension. -/
private theorem unflatten_inner {β : Type} (D : Key) (es : Dict ℕ β)
    (acc : Dict ℕ ℕ × Dict (ℕ × ℕ) (Key × ℕ)) (done : ℕ → List (Key × ℕ))
    (hcnt : ∀ d, (acc.1.get? d).getD 0 = (done d).length)
    (hmap : ∀ d i, acc.2.get? (d, i) = (done d)[i]?) :
    let acc' := es.foldl (fun (acc : Dict ℕ ℕ × Dict (ℕ × ℕ) (Key × ℕ)) q =>
      let n := (acc.1.get? D.tupleSum).getD 0
      (acc.1.put D.tupleSum (n + 1), acc.2.put (D.tupleSum, n) (D, q.1))) acc
    let done' := fun d => done d ++ if D.tupleSum = d then es.map fun q => (D, q.1) else []
    (∀ d, (acc'.1.get? d).getD 0 = (done' d).length) ∧
    (∀ d i, acc'.2.get? (d, i) = (done' d)[i]?) := by
  induction es generalizing acc done with
  | nil => simpa using ⟨hcnt, hmap⟩
  | cons q es ih =>
    simp only [List.foldl_cons]
    set n := (acc.1.get? D.tupleSum).getD 0 with hn
    have := ih (acc.1.put D.tupleSum (n + 1), acc.2.put (D.tupleSum, n) (D, q.1))
      (fun d => done d ++ if D.tupleSum = d then [(D, q.1)] else []) (by
        intro d
        simp only [Dict.get?_put]
        by_cases h : D.tupleSum = d
        · subst h; simp [hn, hcnt]
        · simp [h, hcnt]) (by
        intro d i
        simp only [Dict.get?_put, hmap]
        have hlen := hcnt D.tupleSum
        rw [← hn] at hlen
        by_cases h : D.tupleSum = d
        · subst h
          simp only [if_true, Prod.mk.injEq, true_and]
          by_cases hi : n = i
          · rw [if_pos hi, ← hi, hlen]; simp
          · rw [if_neg hi]
            rcases Nat.lt_or_gt_of_ne hi with h | h
            · rw [List.getElem?_eq_none (by omega), List.getElem?_eq_none (by simp; omega)]
            · rw [List.getElem?_append_left (by omega)]
        · simp [h])
    obtain ⟨g1, g2⟩ := this
    have e : (fun d => (done d ++ if D.tupleSum = d then [(D, q.1)] else []) ++
        if D.tupleSum = d then es.map (fun q => (D, q.1)) else []) =
        fun d => done d ++ if D.tupleSum = d then (q :: es).map (fun q => (D, q.1)) else [] := by
      funext d
      by_cases h : D.tupleSum = d <;> simp [h]
    constructor
    · intro d; rw [g1 d]; exact congrArg List.length (congrFun e d)
    · intro d i; rw [g2 d i]; exact congrArg (·[i]?) (congrFun e d)

private theorem unflatten_outer {β : Type} (l : List (Key × Dict ℕ β))
    (acc : Dict ℕ ℕ × Dict (ℕ × ℕ) (Key × ℕ)) (done : ℕ → List (Key × ℕ))
    (hcnt : ∀ d, (acc.1.get? d).getD 0 = (done d).length)
    (hmap : ∀ d i, acc.2.get? (d, i) = (done d)[i]?) (d i : ℕ) :
    (l.foldl (fun (acc : Dict ℕ ℕ × Dict (ℕ × ℕ) (Key × ℕ)) p =>
      p.2.foldl (fun acc q =>
        let n := (acc.1.get? p.1.tupleSum).getD 0
        (acc.1.put p.1.tupleSum (n + 1), acc.2.put (p.1.tupleSum, n) (p.1, q.1))) acc) acc).2.get? (d, i)
    = (done d ++ l.flatMap fun p =>
        if p.1.tupleSum = d then p.2.map fun q => (p.1, q.1) else [])[i]? := by
  induction l generalizing acc done with
  | nil => simp [hmap]
  | cons p l ih =>
    obtain ⟨g1, g2⟩ := unflatten_inner p.1 p.2 acc done hcnt hmap
    rw [List.foldl_cons, ih _ _ g1 g2, List.flatMap_cons, List.append_assoc]

private theorem unflatten_eq {β : Type} (t : Dict Key (Dict ℕ β)) (d i : ℕ) :
    (computeUnflatteningMap t).get? (d, i) = ((visits t d)[i]?).map Prod.fst := by
  have h := unflatten_outer (sortedItems t) ([], []) (fun _ => []) (by simp) (by simp) d i
  simp only [List.nil_append] at h
  rw [computeUnflatteningMap, h, ← List.getElem?_map, visits, List.map_flatMap]
  congr 2
  funext p
  split_ifs
  · rw [List.map_map]; rfl
  · rfl

private theorem mem_visits {β : Type} {t : Dict Key (Dict ℕ β)} {d : ℕ} {x : (Key × ℕ) × β} :
    x ∈ visits t d ↔ x.1.1.tupleSum = d ∧ ∃ es, (x.1.1, es) ∈ t ∧ (x.1.2, x.2) ∈ es := by
  simp only [visits, List.mem_flatMap, mem_sortedItems]
  constructor
  · rintro ⟨p, hp, hx⟩
    split_ifs at hx with h
    · obtain ⟨q, hq, rfl⟩ := List.mem_map.1 hx
      exact ⟨h, p.2, hp, hq⟩
    · simp at hx
  · rintro ⟨h, es, h1, h2⟩
    refine ⟨_, h1, ?_⟩
    rw [if_pos h]
    exact List.mem_map.2 ⟨_, h2, rfl⟩

private theorem visits_nodup {β : Type} {t : Dict Key (Dict ℕ β)} (ht : Dict.WF t)
    (hes : ∀ p ∈ t, Dict.WF p.2) (d : ℕ) : ((visits t d).map Prod.fst).Nodup := by
  rw [visits, List.map_flatMap, List.nodup_flatMap]
  constructor
  · intro p hp
    split_ifs
    · rw [List.map_map]
      have := hes p (mem_sortedItems.1 hp)
      have h2 : (Dict.keys p.2).Nodup := this
      have e : (p.2.map (Prod.fst ∘ fun q => ((p.1, q.1), q.2))) =
          (Dict.keys p.2).map fun k => (p.1, k) := by
        rw [Dict.keys, List.map_map]; rfl
      rw [e]
      exact h2.map fun a b h => by simpa using h
    · simp
  · refine (sortedItems_pairwise_lt ht).imp ?_
    intro a b hab x hx hy
    simp only at hx hy
    split_ifs at hx
    · split_ifs at hy
      · simp only [List.mem_map] at hx hy
        obtain ⟨_, ⟨q, _, rfl⟩, rfl⟩ := hx
        obtain ⟨_, ⟨r, _, rfl⟩, h⟩ := hy
        simp at h
        exact hab.ne h.1.symm
      · simp at hy
    · simp at hx

/-- C08: the unflattening map sends flattened entity `(d, i)` to a product entity `(dims, e)` with
`d = sum(dims)`, and the flattened dictionary stores at `(d, i)` the original value of that entity. -/
theorem unflatten_sound {β : Type} (t : Dict Key (Dict ℕ β)) (ht : Dict.WF t)
    (hes : ∀ p ∈ t, Dict.WF p.2) (hs : ∀ p ∈ t, sortedItems p.2 = p.2)
    (d i : ℕ) (D : Key) (e : ℕ) (h : (computeUnflatteningMap t).get? (d, i) = some (D, e)) :
    d = D.tupleSum ∧ ∃ m v, t.get? D = some m ∧ m.get? e = some v ∧ flatAt t d i = some v := by
  rw [unflatten_eq] at h
  rw [flatAt_eq t hs]
  rcases hx : (visits t d)[i]? with _ | x
  · rw [hx] at h; simp at h
  · rw [hx] at h
    simp only [Option.map_some, Option.some.injEq] at h
    obtain ⟨h1, m, h2, h3⟩ := mem_visits.1 (List.mem_of_getElem? hx)
    rw [h] at h1 h2 h3
    exact ⟨h1.symm, m, x.2, Dict.get?_of_mem ht h2, Dict.get?_of_mem (hes _ h2) h3, rfl⟩

/-- C08: every product entity is the image of exactly one flattened entity of dimension
`sum(dims)`. -/
theorem unflatten_bijective {β : Type} (t : Dict Key (Dict ℕ β)) (ht : Dict.WF t)
    (hes : ∀ p ∈ t, Dict.WF p.2) (D : Key) (e : ℕ) (m : Dict ℕ β) (v : β)
    (hD : t.get? D = some m) (he : m.get? e = some v) :
    ∃! i, (computeUnflatteningMap t).get? (D.tupleSum, i) = some (D, e) := by
  have hmem : ((D, e), v) ∈ visits t D.tupleSum :=
    mem_visits.2 ⟨rfl, m, Dict.mem_of_get? hD, Dict.mem_of_get? he⟩
  obtain ⟨i, hi⟩ := List.getElem?_of_mem hmem
  refine ⟨i, by simp only [unflatten_eq, hi, Option.map_some], ?_⟩
  intro j hj
  simp only [unflatten_eq, ← List.getElem?_map] at hj
  have hi' : ((visits t D.tupleSum).map Prod.fst)[i]? = some (D, e) := by simp [hi]
  have hjlt := (List.getElem?_eq_some_iff.1 hj).1
  exact (List.getElem?_inj hjlt (visits_nodup ht hes _)).1 (hj.trans hi'.symm)

/-- C08: flattened entities and keys of the unflattening map are the same. -/
theorem unflatten_domain {β : Type} (t : Dict Key (Dict ℕ β))
    (hs : ∀ p ∈ t, sortedItems p.2 = p.2) (d i : ℕ) :
    (flatAt t d i).isSome ↔ ((computeUnflatteningMap t).get? (d, i)).isSome := by
  rw [flatAt_eq t hs, unflatten_eq]; simp

/-- The hypotheses of C08 hold for the topology of every tensor-product cell. -/
theorem tensor_sortedItems (cells : List (CellData α)) (hc : ∀ c ∈ cells, GoodCell c) :
    ∀ p ∈ (tensorProductCell cells).topo, sortedItems p.2 = p.2 := by
  have hwf : ∀ c ∈ cells, c.topo.WF := fun c h => (hc c h).wf
  rw [tensor_topo_eq cells hwf]
  intro p hp
  obtain ⟨dims, _, rfl⟩ := List.mem_map.1 hp
  simp only
  rw [productEntities_eq _ _ (topds_wf cells hwf dims)]
  apply sortedItems_of_pairwise
  rw [← List.pairwise_map (f := Prod.fst)]
  change (Dict.keys (enumDict _)).Pairwise _
  rw [keys_enumDict]
  exact List.pairwise_lt_range.imp fun h => h.le

/-! Non-vacuity: the quadrilateral. -/
example : GoodCell (tensorProductCell [ufcInterval, ufcInterval] : CellData ℤ) :=
  tensor_good _ (by simp [good_interval])
example : GoodCell (tensorProductCell
    [tensorProductCell [ufcInterval, ufcTriangle], ufcInterval] : CellData ℤ) :=
  tensor_good _ (by
    intro c hc
    simp only [List.mem_cons, List.not_mem_nil, or_false] at hc
    rcases hc with rfl | rfl
    · exact tensor_good _ (by
        intro c hc
        simp only [List.mem_cons, List.not_mem_nil, or_false] at hc
        rcases hc with rfl | rfl
        exacts [good_interval, good_triangle])
    · exact good_interval)
/-- Edge 2 of the quadrilateral is edge 0 of the first factor times vertex 0 of the second. -/
example : (computeUnflatteningMap (tensorProductCell [ufcInterval, ufcInterval] : CellData ℤ).topo).get? (1, 2)
    = some (Key.tup [Key.int 1, Key.int 0], 0) := by decide +kernel
example : flatAt (tensorProductCell [ufcInterval, ufcInterval] : CellData ℤ).topo 1 2 = some [0, 2] := by
  decide +kernel
example : IsFactors [(ufcInterval : CellData ℤ), ufcTriangle]
    [⟨Key.int 0, 1, [1]⟩, ⟨Key.int 1, 2, [0, 1]⟩] :=
  .cons ⟨_, rfl, rfl⟩ (.cons ⟨_, rfl, rfl⟩ .nil)
example : ((subEntities (ufcTriangle : CellData ℤ).topo).get? (Key.int 1)).bind (·.get? 0)
    = some [toLex (Key.int 0, 1), toLex (Key.int 0, 2), toLex (Key.int 1, 0)] := by decide +kernel

end FIAT
