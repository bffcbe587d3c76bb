/-
C67: the reference normals of tensor-product cells, quadrilaterals and hexahedra.
-/
import Verif.Model.TensorNormals
import Verif.Props.SerendipityTab
import Verif.Props.Normals

namespace FIAT
section

/-! ### Specification -/

/-- The scalar product of `r` with `x - y`. -/
def pairing (r x y : List ℝ) : ℝ := (List.zipWith (fun a b => a * b) r (List.zipWith (fun a b => a - b) x y)).sum

/-- Specification: `r` has maximum norm 1, is orthogonal to the facet with the vertices `vs`, and the vertices of the cell that do not belong
to the facet are all on one side, the one `r` points away from if `out`. -/
structure ReferenceNormal (out : Prop) (c : CellData ℝ) (vs : List ℕ) (r : List ℝ) : Prop where
  le : ∀ x ∈ r, |x| ≤ 1
  eq : ∃ x ∈ r, |x| = 1
  orth : ∀ a ∈ vs, ∀ b ∈ vs, ∀ x y, c.verts[a]? = some x → c.verts[b]? = some y → pairing r x y = 0
  side : ∃ σ : ℝ, (σ = 1 ∨ σ = -1) ∧ (out → σ = 1) ∧
    ∀ a ∈ vs, ∀ b, b ∉ vs → ∀ x y, c.verts[a]? = some x → c.verts[b]? = some y → 0 < σ * pairing r x y

/-- Specification: what the factors satisfy: a cell of integer dimension `dim` in `dim`-dimensional space, with one entity of that dimension,
that has all vertices, and whose reference normals are normals (outward ones if `out`). -/
structure GeomOK (out : Prop) (g : CellGeom) : Prop where
  good : GoodCell g.data
  coords : ∀ x ∈ g.data.verts, x.length = g.dim
  dims : ∀ k e v, HasEntity g.data.topo k e v → ∃ d ≤ g.dim, k = .int d
  top : ∀ e v, HasEntity g.data.topo (.int g.dim) e v → e = 0 ∧ ∀ a < g.data.verts.length, a ∈ v
  one : ∃ v, HasEntity g.data.topo (.int g.dim) 0 v
  normal : 1 ≤ g.dim → ∀ e v, HasEntity g.data.topo (.int (g.dim - 1)) e v →
    ∃ r, g.refNormal (g.dim - 1) e = some r ∧ r.length = g.dim ∧ ReferenceNormal out g.data v r

/-! ### Proofs -/

variable {out : Prop}

theorem pairing_append {r r' x x' y y' : List ℝ} (h1 : r.length = x.length) (h2 : r.length = y.length) :
    pairing (r ++ r') (x ++ x') (y ++ y') = pairing r x y + pairing r' x' y' := by
  unfold pairing
  rw [List.zipWith_append (l₁ := x) (l₂ := y) (by omega), List.zipWith_append (by rw [List.length_zipWith]; omega), List.sum_append]

theorem pairing_zero (n : ℕ) (x y : List ℝ) : pairing (List.replicate n 0) x y = 0 := by
  unfold pairing
  have : ∀ l : List ℝ, (List.zipWith (fun a b => a * b) (List.replicate n 0) l).sum = 0 := by
    induction n with
    | zero => simp
    | succ n ih =>
      intro l
      cases l with
      | nil => simp
      | cons a l => rw [List.replicate_succ, List.zipWith_cons_cons, List.sum_cons, ih, zero_mul, zero_add]
  exact this _

theorem numEntities_top {g : CellGeom} (hg : GeomOK out g) : numEntities g.data.topo (.int g.dim) = 1 := by
  obtain ⟨v, es, h1, h2⟩ := hg.one
  have hnum := hg.good.numbered _ _ (Dict.mem_of_get? h1)
  rw [numEntities, h1, Option.getD_some]
  by_contra hne
  have hpos : es.length ≠ 0 := by
    intro h0
    rw [List.length_eq_zero_iff] at h0
    subst h0
    exact absurd h2 (by simp [Dict.get?])
  have hmem : 1 ∈ Dict.keys es := by
    rw [← mem_pySorted, hnum, List.mem_range]
    omega
  obtain ⟨⟨e, w⟩, hw, rfl⟩ := List.mem_map.1 hmem
  have hwf : Dict.WF es := hg.good.wf.2 _ (Dict.mem_of_get? h1)
  have := (hg.top 1 w ⟨es, h1, Dict.get?_of_mem hwf hw⟩).1
  omega

/-- The factors of full dimension. -/
theorem top_factors {gs : List CellGeom} (hg : ∀ g ∈ gs, GeomOK out g) {F : List Factor} (hF : IsFactors (gs.map CellGeom.data) F)
    (hd : F.map Factor.dim = gs.map fun g => Key.int g.dim) :
    (∀ f ∈ F, f.ent = 0) ∧ (eshape (gs.map CellGeom.data) F).prod = 1 ∧
      ∀ is, List.Forall₂ (· < ·) is (vshape (gs.map CellGeom.data)) → List.Forall₂ (fun i (f : Factor) => i ∈ f.vs) is F := by
  induction gs generalizing F with
  | nil =>
    cases hF
    exact ⟨by simp, rfl, fun is h => by cases h; exact .nil⟩
  | cons g gs ih =>
    cases hF with
    | @cons _ f _ F' h1 h2 =>
      simp only [List.map_cons, List.cons.injEq] at hd
      obtain ⟨i1, i2, i3⟩ := ih (fun g h => hg g (by simp [h])) h2 hd.2
      rw [hd.1] at h1
      obtain ⟨t1, t2⟩ := (hg g (by simp)).top _ _ h1
      refine ⟨?_, ?_, ?_⟩
      · intro f' hf'
        rcases List.mem_cons.1 hf' with rfl | hf'
        · exact t1
        · exact i1 f' hf'
      · show (numEntities g.data.topo f.dim :: eshape (gs.map CellGeom.data) F').prod = 1
        rw [List.prod_cons, i2, hd.1, numEntities_top (hg g (by simp))]
      · intro is his
        cases his with
        | cons h3 h4 => exact .cons (t2 _ h3) (i3 _ h4)

theorem ravel_zero {is : List ℕ} (h : ∀ i ∈ is, i = 0) (ss : List ℕ) : ravel is ss = 0 := by
  induction is generalizing ss with
  | nil => cases ss <;> rfl
  | cons i is ih =>
    cases ss with
    | nil => rfl
    | cons s ss =>
      rw [ravel, h i (by simp), ih (fun i hi => h i (by simp [hi])), Nat.zero_mul]

theorem ravel_mid {is js : List ℕ} {e n : ℕ} {ss ts : List ℕ} (hlen : is.length = ss.length) (h1 : ∀ i ∈ is, i = 0) (h2 : ∀ i ∈ js, i = 0)
    (ht : ts.prod = 1) : ravel (is ++ e :: js) (ss ++ n :: ts) = e := by
  induction is generalizing ss with
  | nil =>
    have : ss = [] := List.length_eq_zero_iff.1 hlen.symm
    subst this
    rw [List.nil_append, List.nil_append, ravel, ht, ravel_zero h2]
    omega
  | cons i is ih =>
    cases ss with
    | nil => simp at hlen
    | cons s ss =>
      rw [List.cons_append, List.cons_append, ravel, h1 i (by simp), ih (by simpa using hlen) (fun i hi => h1 i (by simp [hi]))]
      omega

/-- Vertices of the product as concatenations. -/
theorem vertex_split {cells : List (CellData ℝ)} {b : ℕ} {x : List ℝ} (h : (tensorProductCell cells).verts[b]? = some x) :
    ∃ ps : List (ℕ × List ℝ), b = ravel (ps.map Prod.fst) (vshape cells) ∧ x = (ps.map Prod.snd).flatten ∧
      List.Forall₂ (fun (p : ℕ × List ℝ) (c : CellData ℝ) => c.verts[p.1]? = some p.2) ps cells := by
  have hb : b < (vshape cells).prod := by
    rw [← tensor_vertices_length]
    exact (List.getElem?_eq_some_iff.1 h).1
  obtain ⟨h1, h2⟩ := unravel_spec hb
  have hex : ∀ (is : List ℕ) (cells : List (CellData ℝ)), List.Forall₂ (· < ·) is (vshape cells) →
      ∃ ps : List (ℕ × List ℝ), ps.map Prod.fst = is ∧
        List.Forall₂ (fun (p : ℕ × List ℝ) (c : CellData ℝ) => c.verts[p.1]? = some p.2) ps cells := by
    intro is cells
    induction cells generalizing is with
    | nil => intro h; cases h; exact ⟨[], rfl, .nil⟩
    | cons c cells ih =>
      intro h
      cases h with
      | @cons i _ is' _ h3 h4 =>
        obtain ⟨ps, p1, p2⟩ := ih _ h4
        exact ⟨(i, c.verts[i]) :: ps, by rw [List.map_cons, p1], .cons (List.getElem?_eq_getElem h3) p2⟩
  obtain ⟨ps, p1, p2⟩ := hex _ _ h1
  have := tensor_vertices cells ps p2
  rw [p1, h2, h, Option.some.injEq] at this
  exact ⟨ps, by rw [p1, h2], this, p2⟩

theorem flatten_length {gs : List CellGeom} (hg : ∀ g ∈ gs, GeomOK out g) {ps : List (ℕ × List ℝ)}
    (h : List.Forall₂ (fun (p : ℕ × List ℝ) (c : CellData ℝ) => c.verts[p.1]? = some p.2) ps (gs.map CellGeom.data)) :
    (ps.map Prod.snd).flatten.length = (gs.map CellGeom.dim).sum := by
  induction gs generalizing ps with
  | nil => cases h; rfl
  | cons g gs ih =>
    cases h with
    | @cons p _ ps' _ h1 h2 =>
      rw [List.map_cons, List.flatten_cons, List.length_append, List.map_cons, List.sum_cons, ih (fun g h => hg g (by simp [h])) h2,
        (hg g (by simp)).coords p.2 (List.mem_of_getElem? h1)]

theorem forall2_append_right {α β : Type} {R : α → β → Prop} {l : List α} {a b : List β} (h : List.Forall₂ R l (a ++ b)) :
    ∃ l1 l2, l = l1 ++ l2 ∧ List.Forall₂ R l1 a ∧ List.Forall₂ R l2 b :=
  ⟨l.take a.length, l.drop a.length, (List.take_append_drop _ _).symm, List.forall₂_take_append l a b h, List.forall₂_drop_append l a b h⟩

private theorem mapM_blocks {gs : List CellGeom} (ds : List ℕ) (hd : ds = gs.map CellGeom.dim) (k ci facet : ℕ)
    (h : ∀ i, k ≤ i → i < k + gs.length → ci ≠ i) :
    ((gs.zip ds).zipIdx k).mapM (fun (q : (CellGeom × ℕ) × ℕ) =>
      if ci = q.2 then q.1.1.refNormal q.1.2 facet else some (List.replicate q.1.1.dim 0)) =
      some (gs.map fun g => List.replicate g.dim (0 : ℝ)) := by
  subst hd
  induction gs generalizing k with
  | nil => rfl
  | cons g gs ih =>
    rw [List.map_cons, List.zip_cons_cons, List.zipIdx_cons, List.mapM_cons]
    rw [if_neg (h k le_rfl (by simp))]
    rw [ih (k + 1) fun i h1 h2 => h i (by omega) (by rw [List.length_cons]; omega)]
    rfl

theorem blocks_zero (gs : List CellGeom) : (gs.map fun g => List.replicate g.dim (0 : ℝ)).flatten =
    List.replicate (gs.map CellGeom.dim).sum 0 := by
  induction gs with
  | nil => rfl
  | cons g gs ih => rw [List.map_cons, List.flatten_cons, ih, List.map_cons, List.sum_cons, List.replicate_add]

private theorem nonzeroDims_same (gs : List CellGeom) (k : ℕ) :
    (((gs.zip (gs.map CellGeom.dim)).zipIdx k).filter fun (q : (CellGeom × ℕ) × ℕ) => decide (q.1.1.dim ≠ q.1.2)) = [] := by
  rw [List.filter_eq_nil_iff]
  intro q hq
  have h1 : q.1 ∈ gs.zip (gs.map CellGeom.dim) := (List.mem_zipIdx hq).2.2 ▸ List.getElem_mem _
  have : q.1.1.dim = q.1.2 := by
    have h2 : gs.zip (gs.map CellGeom.dim) = gs.map fun g => (g, g.dim) := by
      clear hq h1
      induction gs with
      | nil => rfl
      | cons g gs ih => simp [ih]
    rw [h2] at h1
    obtain ⟨g, -, hgq⟩ := List.mem_map.1 h1
    rw [← hgq]
  simp [this]

/-- **C67.** On a tensor-product cell, `compute_reference_normal` of a facet (a facet of one factor times the other factors) is a vector of
maximum norm 1, orthogonal to the facet, and the vertices of the cell that are not on the facet are all on one side of it: the inner side of the
normal if the reference normals of the factors are outward. -/
theorem tensor_reference_normal_spec (pre post : List CellGeom) (g : CellGeom) (hg : ∀ g' ∈ pre ++ g :: post, GeomOK out g') (hdim : 1 ≤ g.dim)
    (facet : ℕ) (vs : List ℕ)
    (h : HasEntity (tensorProductCell ((pre ++ g :: post).map CellGeom.data)).topo
      (Key.tup ((pre.map fun g => Key.int g.dim) ++ Key.int (g.dim - 1) :: post.map fun g => Key.int g.dim)) facet vs) :
    ∃ r, tensorReferenceNormal (pre ++ g :: post) (pre.map CellGeom.dim ++ (g.dim - 1) :: post.map CellGeom.dim) facet = some r ∧
      r.length = ((pre ++ g :: post).map CellGeom.dim).sum ∧ ReferenceNormal out (tensorProductCell ((pre ++ g :: post).map CellGeom.data)) vs r := by
  have hgood : ∀ c ∈ (pre ++ g :: post).map CellGeom.data, GoodCell c := by
    intro c hc
    obtain ⟨g', hg', rfl⟩ := List.mem_map.1 hc
    exact (hg g' hg').good
  have hpre : ∀ g' ∈ pre, GeomOK out g' := fun g' h => hg g' (by simp [h])
  have hpost : ∀ g' ∈ post, GeomOK out g' := fun g' h => hg g' (by simp [h])
  have hgg : GeomOK out g := hg g (by simp)
  obtain ⟨F, hF, hD, -, hi, hvs⟩ := tensor_entity_conv _ hgood _ _ _ h
  have hD := Key.tup_injective hD
  obtain ⟨F1, F2', rfl, hF1, hF2'⟩ : ∃ F1 F2, F = F1 ++ F2 ∧ IsFactors (pre.map CellGeom.data) F1 ∧
      IsFactors ((g :: post).map CellGeom.data) F2 := by
    unfold IsFactors at hF
    rw [List.map_append] at hF
    have := forall2_append_right (R := fun (f : Factor) (c : CellData ℝ) => HasEntity c.topo f.dim f.ent f.vs) (List.Forall₂.flip hF)
    obtain ⟨l1, l2, rfl, h1, h2⟩ := this
    exact ⟨l1, l2, rfl, h1.flip, h2.flip⟩
  have hl1 : F1.length = pre.length := by have := hF1.length_eq; simpa using this.symm
  rw [List.map_append] at hD
  obtain ⟨hD1, hD2⟩ := List.append_inj hD (by simp [hl1])
  cases hF2' with
  | @cons _ f _ F2 hf hF2 =>
  simp only [List.map_cons, List.cons.injEq] at hD2
  obtain ⟨hD2, hD3⟩ := hD2
  obtain ⟨t1, t2, t3⟩ := top_factors hpre hF1 hD1.symm
  obtain ⟨s1, s2, s3⟩ := top_factors hpost hF2 hD3.symm
  rw [← hD2] at hf
  -- the number of the facet
  have hent : facet = f.ent := by
    rw [hi, List.map_append, List.map_cons]
    have : eshape ((pre ++ g :: post).map CellGeom.data) (F1 ++ f :: F2) =
        eshape (pre.map CellGeom.data) F1 ++ numEntities g.data.topo f.dim :: eshape (post.map CellGeom.data) F2 := by
      unfold eshape
      rw [List.map_append, List.zipWith_append (by simp [hl1])]
      rfl
    rw [this]
    refine ravel_mid ?_ ?_ ?_ s2
    · simp [eshape, hl1]
    · intro i hi
      obtain ⟨f', hf', rfl⟩ := List.mem_map.1 hi
      exact t1 f' hf'
    · intro i hi
      obtain ⟨f', hf', rfl⟩ := List.mem_map.1 hi
      exact s1 f' hf'
  subst hent
  obtain ⟨r, hr1, hr2, hr3⟩ := hgg.normal hdim _ _ hf
  have hmem : ∀ (ps : List (ℕ × List ℝ)),
      List.Forall₂ (fun (p : ℕ × List ℝ) (c : CellData ℝ) => c.verts[p.1]? = some p.2) ps ((pre ++ g :: post).map CellGeom.data) →
      ∃ p1 p p2, ps = p1 ++ p :: p2 ∧ g.data.verts[p.1]? = some p.2 ∧ (p1.map Prod.snd).flatten.length = (pre.map CellGeom.dim).sum ∧
        (p2.map Prod.snd).flatten.length = (post.map CellGeom.dim).sum ∧
        (ravel (ps.map Prod.fst) (vshape ((pre ++ g :: post).map CellGeom.data)) ∈ vs ↔ p.1 ∈ f.vs) := by
    intro ps hps
    have hps' := hps
    rw [List.map_append] at hps'
    obtain ⟨p1, p2', rfl, h1, h2⟩ := forall2_append_right hps'
    cases h2 with
    | @cons p _ p2 _ h3 h4 =>
    have hlt : ∀ (qs : List (ℕ × List ℝ)) (cs : List (CellData ℝ)),
        List.Forall₂ (fun (p : ℕ × List ℝ) (c : CellData ℝ) => c.verts[p.1]? = some p.2) qs cs →
        List.Forall₂ (· < ·) (qs.map Prod.fst) (vshape cs) := by
      intro qs cs hq
      unfold vshape
      rw [List.forall₂_map_left_iff, List.forall₂_map_right_iff]
      exact hq.imp fun a b hab => (List.getElem?_eq_some_iff.1 hab).1
    refine ⟨p1, p, p2, rfl, h3, flatten_length hpre h1, flatten_length hpost h4, ?_⟩
    rw [hvs, tensor_vertex_mem _ hgood _ hF _ (hlt _ _ hps)]
    rw [List.map_append, List.map_cons]
    constructor
    · intro hall
      obtain ⟨l1, l2, e1, e2, e3⟩ := forall2_append_right hall
      have hlen : l1.length = (p1.map Prod.fst).length := by
        rw [e2.length_eq, hl1, List.length_map, h1.length_eq, List.length_map]
      obtain ⟨e4, e5⟩ := List.append_inj e1.symm hlen
      rw [e5] at e3
      cases e3 with
      | cons h5 _ => exact h5
    · intro hp
      exact List.rel_append (t3 _ (hlt _ _ h1)) (.cons hp (s3 _ (hlt _ _ h4)))
  have hpair : ∀ (p1 q1 p2 q2 : List (ℕ × List ℝ)) (p q : ℕ × List ℝ), (p1.map Prod.snd).flatten.length = (pre.map CellGeom.dim).sum →
      (q1.map Prod.snd).flatten.length = (pre.map CellGeom.dim).sum → p.2.length = g.dim → q.2.length = g.dim →
      pairing (List.replicate (pre.map CellGeom.dim).sum 0 ++ (r ++ List.replicate (post.map CellGeom.dim).sum 0))
        ((p1 ++ p :: p2).map Prod.snd).flatten ((q1 ++ q :: q2).map Prod.snd).flatten = pairing r p.2 q.2 := by
    intro p1 q1 p2 q2 p q h1 h2 h3 h4
    rw [List.map_append, List.map_cons, List.flatten_append, List.flatten_cons, List.map_append, List.map_cons, List.flatten_append,
      List.flatten_cons, pairing_append (by simp only [List.length_replicate]; omega) (by simp only [List.length_replicate]; omega),
      pairing_append (by omega) (by omega), pairing_zero, pairing_zero]
    ring
  refine ⟨List.replicate (pre.map CellGeom.dim).sum 0 ++ (r ++ List.replicate (post.map CellGeom.dim).sum 0), ?_, ?_, ?_, ?_, ?_, ?_⟩
  · have hzip : (pre ++ g :: post).zip (pre.map CellGeom.dim ++ (g.dim - 1) :: post.map CellGeom.dim) =
        pre.zip (pre.map CellGeom.dim) ++ (g, g.dim - 1) :: post.zip (post.map CellGeom.dim) := by
      rw [List.zip_append (by simp), List.zip_cons_cons]
    have hnz : nonzeroDims (pre ++ g :: post) (pre.map CellGeom.dim ++ (g.dim - 1) :: post.map CellGeom.dim) = [pre.length] := by
      unfold nonzeroDims
      rw [hzip, List.zipIdx_append, List.zipIdx_cons, List.filter_append, nonzeroDims_same, List.filter_cons_of_pos (by
        simp only [decide_eq_true_eq]
        omega), nonzeroDims_same]
      simp
    unfold tensorReferenceNormal
    rw [if_neg (by simp), hnz]
    show ((((pre ++ g :: post).zip (pre.map CellGeom.dim ++ (g.dim - 1) :: post.map CellGeom.dim)).zipIdx.mapM
      fun (q : (CellGeom × ℕ) × ℕ) => if pre.length = q.2 then q.1.1.refNormal q.1.2 f.ent else some (List.replicate q.1.1.dim 0)).map
        List.flatten) = _
    rw [hzip, List.zipIdx_append, List.zipIdx_cons, List.mapM_append,
      mapM_blocks _ rfl 0 _ _ (fun i h1 h2 => by omega), List.mapM_cons, if_pos (by simp), hr1,
      mapM_blocks _ rfl _ _ _ (fun i h1 h2 => by simp at h1; omega)]
    simp only [Option.bind_eq_bind, Option.bind_some, Option.pure_def, Option.map_some]
    rw [List.flatten_append, List.flatten_cons, blocks_zero, blocks_zero]
  · simp only [List.length_append, List.length_replicate, hr2, List.map_append, List.map_cons, List.sum_append, List.sum_cons]
  · intro x hx
    rcases List.mem_append.1 hx with hx | hx
    · rw [(List.mem_replicate.1 hx).2]; norm_num
    · rcases List.mem_append.1 hx with hx | hx
      · exact hr3.le x hx
      · rw [(List.mem_replicate.1 hx).2]; norm_num
  · obtain ⟨x, hx, hx'⟩ := hr3.eq
    exact ⟨x, by simp [hx], hx'⟩
  · intro a ha b hb x y hx hy
    obtain ⟨ps, rfl, rfl, hps⟩ := vertex_split hx
    obtain ⟨qs, rfl, rfl, hqs⟩ := vertex_split hy
    obtain ⟨p1, p, p2, rfl, h1, h2, h3, h4⟩ := hmem ps hps
    obtain ⟨q1, q, q2, rfl, k1, k2, k3, k4⟩ := hmem qs hqs
    rw [hpair _ _ _ _ _ _ h2 k2 (hgg.coords _ (List.mem_of_getElem? h1)) (hgg.coords _ (List.mem_of_getElem? k1))]
    exact hr3.orth _ (h4.1 ha) _ (k4.1 hb) _ _ h1 k1
  · obtain ⟨σ, σ1, σ2, σ3⟩ := hr3.side
    refine ⟨σ, σ1, σ2, ?_⟩
    intro a ha b hb x y hx hy
    obtain ⟨ps, rfl, rfl, hps⟩ := vertex_split hx
    obtain ⟨qs, rfl, rfl, hqs⟩ := vertex_split hy
    obtain ⟨p1, p, p2, rfl, h1, h2, h3, h4⟩ := hmem ps hps
    obtain ⟨q1, q, q2, rfl, k1, k2, k3, k4⟩ := hmem qs hqs
    rw [hpair _ _ _ _ _ _ h2 k2 (hgg.coords _ (List.mem_of_getElem? h1)) (hgg.coords _ (List.mem_of_getElem? k1))]
    exact σ3 _ (h4.1 ha) _ (fun h => hb (k4.2 h)) _ _ h1 k1


/-! ### The flattened cells -/

theorem intTuple_tup (l : List ℕ) : intTuple (Key.tup (l.map Key.int)) = some l := by
  induction l with
  | nil => rfl
  | cons n l ih =>
    show (intTuple (Key.tup (l.map Key.int))).map (fun l => n :: l) = _
    rw [ih]
    rfl

theorem tupleSum_tup (l : List ℕ) : (Key.tup (l.map Key.int)).tupleSum = l.sum := by
  induction l with
  | nil => rfl
  | cons n l ih =>
    rw [List.sum_cons, ← ih]
    rfl

/-- Numbers below others with a sum one less. -/
theorem one_reduced {gs : List CellGeom} {ds : List ℕ} (h : List.Forall₂ (fun d (g : CellGeom) => d ≤ g.dim) ds gs)
    (hs : ds.sum + 1 = (gs.map CellGeom.dim).sum) :
    ∃ pre g post, gs = pre ++ g :: post ∧ 1 ≤ g.dim ∧ ds = pre.map CellGeom.dim ++ (g.dim - 1) :: post.map CellGeom.dim := by
  have hle : ∀ {gs : List CellGeom} {ds : List ℕ}, List.Forall₂ (fun d (g : CellGeom) => d ≤ g.dim) ds gs →
      ds.sum ≤ (gs.map CellGeom.dim).sum ∧ ((gs.map CellGeom.dim).sum ≤ ds.sum → ds = gs.map CellGeom.dim) := by
    intro gs ds h
    induction h with
    | nil => exact ⟨le_rfl, fun _ => rfl⟩
    | @cons d g ds gs h1 h2 ih =>
      simp only [List.sum_cons, List.map_cons, List.cons.injEq]
      refine ⟨by omega, fun h => ?_⟩
      have := ih.2 (by omega)
      exact ⟨by rw [this] at h; omega, this⟩
  induction h with
  | nil => simp at hs
  | @cons d g ds gs h1 h2 ih =>
    simp only [List.sum_cons, List.map_cons] at hs
    by_cases hd : d = g.dim
    · obtain ⟨pre, g', post, e1, e2, e3⟩ := ih (by omega)
      exact ⟨g :: pre, g', post, by rw [e1]; rfl, e2, by rw [e3, hd]; rfl⟩
    · obtain ⟨l1, l2⟩ := hle h2
      have := l2 (by omega)
      refine ⟨[], g, gs, rfl, by omega, ?_⟩
      rw [this] at hs ⊢
      rw [List.map_nil, List.nil_append]
      congr 1
      omega

/-- The factors of an entity of the product. -/
theorem factor_dims {gs : List CellGeom} (hg : ∀ g ∈ gs, GeomOK out g) {F : List Factor} (hF : IsFactors (gs.map CellGeom.data) F) :
    ∃ ds : List ℕ, F.map Factor.dim = ds.map Key.int ∧ List.Forall₂ (fun d (g : CellGeom) => d ≤ g.dim) ds gs := by
  induction gs generalizing F with
  | nil => cases hF; exact ⟨[], rfl, .nil⟩
  | cons g gs ih =>
    cases hF with
    | @cons _ f _ F' h1 h2 =>
      obtain ⟨d, hd, hk⟩ := (hg g (by simp)).dims _ _ _ h1
      obtain ⟨ds, e1, e2⟩ := ih (fun g h => hg g (by simp [h])) h2
      exact ⟨d :: ds, by rw [List.map_cons, List.map_cons, e1, hk], .cons hd e2⟩

/-- **C67.** `compute_reference_normal` of `UFCQuadrilateral` and `UFCHexahedron` (and of any other cell `c` that is a flattened product): for
every facet of the cell the vector returned is a reference normal of that facet, outward if those of the factors are; for every other
`facet_dim` the call fails. -/
theorem flat_reference_normal_spec (gs : List CellGeom) (hg : ∀ g ∈ gs, GeomOK out g) (c : CellData ℝ)
    (hv : c.verts = (tensorProductCell (gs.map CellGeom.data)).verts)
    (hc : IsFlatOf (tensorProductCell (gs.map CellGeom.data)).topo c.topo) (N : ℕ) (hN : N + 1 = (gs.map CellGeom.dim).sum) :
    (∀ facet vs, HasEntity c.topo (.int N) facet vs →
      ∃ r, flatReferenceNormal gs N N facet = some r ∧ r.length = N + 1 ∧ ReferenceNormal out c vs r) ∧
    ∀ facet_dim, facet_dim ≠ N → ∀ facet, flatReferenceNormal gs N facet_dim facet = none := by
  refine ⟨fun facet vs h => ?_, fun fd hne facet => by unfold flatReferenceNormal; rw [if_pos hne]⟩
  have hgood : ∀ c ∈ gs.map CellGeom.data, GoodCell c := by
    intro c hc
    obtain ⟨g', hg', rfl⟩ := List.mem_map.1 hc
    exact (hg g' hg').good
  have h1 := (hc.same _ _ _).1 h
  obtain ⟨⟨D, e⟩, hD⟩ := Option.isSome_iff_exists.1 ((unflatten_domain _ hc.sorted _ _).1 (by rw [h1]; rfl))
  obtain ⟨s1, m, v, s2, s3, s4⟩ := unflatten_sound _ hc.wf.1 hc.wf.2 hc.sorted _ _ _ _ hD
  rw [h1, Option.some.injEq] at s4
  subst s4
  have hent : HasEntity (tensorProductCell (gs.map CellGeom.data)).topo D e vs := ⟨m, s2, s3⟩
  obtain ⟨F, hF, hk, -⟩ := tensor_entity_conv _ hgood _ _ _ hent
  obtain ⟨ds, e1, e2⟩ := factor_dims hg hF
  rw [e1] at hk
  subst hk
  rw [tupleSum_tup] at s1
  obtain ⟨pre, g, post, rfl, g1, rfl⟩ := one_reduced e2 (by omega)
  have hkey : ((pre.map CellGeom.dim ++ (g.dim - 1) :: post.map CellGeom.dim).map Key.int) =
      (pre.map fun g => Key.int g.dim) ++ Key.int (g.dim - 1) :: post.map fun g => Key.int g.dim := by
    simp [Function.comp_def]
  rw [hkey] at hent
  obtain ⟨r, r1, r2, r3⟩ := tensor_reference_normal_spec pre post g hg g1 e vs hent
  refine ⟨r, ?_, by rw [r2, hN], ⟨r3.le, r3.eq, ?_, ?_⟩⟩
  · unfold flatReferenceNormal
    rw [if_neg (by simp), hD]
    show (intTuple (Key.tup ((pre.map CellGeom.dim ++ (g.dim - 1) :: post.map CellGeom.dim).map Key.int))).bind _ = _
    rw [intTuple_tup]
    exact r1
  · rw [hv]; exact r3.orth
  · rw [hv]; exact r3.side

end
end FIAT
