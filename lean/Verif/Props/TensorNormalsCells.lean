/-
C67: simplices and flattened cells as factors; rejected arguments; volumes of tensor-product cells.
-/
import Verif.Props.TensorNormals
import Verif.Props.Argyris

namespace FIAT
section

/-- Specification: the dimensions of a simplex are integers. -/
def IntKeys (t : Topology Key) : Prop := ∀ p ∈ t, ∃ k, p.1 = Key.int k

theorem pairing_ofFn {D : ℕ} (n x y : Fin D → ℝ) : pairing (List.ofFn n) (List.ofFn x) (List.ofFn y) = ∑ j, n j * (x j - y j) := by
  unfold pairing
  induction D with
  | zero => simp
  | succ D ih =>
    rw [List.ofFn_succ, List.ofFn_succ, List.ofFn_succ, List.zipWith_cons_cons, List.zipWith_cons_cons, List.sum_cons, Fin.sum_univ_succ, ih]

theorem toSimplex_get (t : Topology Key) (ht : IntKeys t) (k : ℕ) :
    Dict.get? (t.map fun p => (p.1.toNat, p.2)) k = Dict.get? t (.int k) := by
  induction t with
  | nil => rfl
  | cons p t ih =>
    have ih := ih fun q hq => ht q (by simp [hq])
    obtain ⟨k', hk'⟩ := ht p (by simp)
    rw [List.map_cons, Dict.get?_cons, Dict.get?_cons, ih, hk']
    by_cases h : k' = k
    · rw [if_pos (show (Key.int k').toNat = k from h), if_pos (by rw [h])]
    · rw [if_neg (show ¬ (Key.int k').toNat = k from h), if_neg (by simpa using h)]

theorem toSimplex_entity {c : CellData ℝ} (hc : IntKeys c.topo) (D k e : ℕ) (v : List ℕ) :
    HasEntity (c.toSimplex D).topo k e v ↔ HasEntity c.topo (.int k) e v := by
  unfold HasEntity
  rw [← toSimplex_get c.topo hc k]
  rfl

theorem toSimplex_v {c : CellData ℝ} {D a : ℕ} {x : List ℝ} (hx : c.verts[a]? = some x) (hl : x.length = D) :
    x = List.ofFn ((c.toSimplex D).v a) := by
  have : (c.toSimplex D).v a = fun i : Fin D => (x[(i : ℕ)]?).getD 0 := by
    simp [SimplexCell.v, CellData.toSimplex, hx]
  rw [this]
  refine List.ext_getElem (by simp [hl]) fun i h1 h2 => ?_
  simp [h1]

/-- All vertices of a facet are at the same distance from the opposite vertex along a normal. -/
theorem side_of {D : ℕ} (hD : 1 ≤ D) {s : SimplexCell (Fin D → ℝ)} (hs : ProperSimplex ℝ s) {t : List ℕ} {off : Fin (D + 1)}
    (ht : ∀ a, a ∈ t ↔ a < D + 1 ∧ a ≠ off) {n : Fin D → ℝ} (h1 : n ≠ 0)
    (h2 : ∀ a ∈ t, ∀ c ∈ t, ∑ j, n j * (s.v a j - s.v c j) = 0) :
    ∃ r : ℝ, r ≠ 0 ∧ ∀ a ∈ t, ∑ j, n j * (s.v a j - s.v off j) = r := by
  have hq : 0 < ∑ j, n j ^ 2 := by
    obtain ⟨i, hi⟩ := Function.ne_iff.1 h1
    exact Finset.sum_pos' (fun j _ => sq_nonneg _) ⟨i, Finset.mem_univ _, by rw [Pi.zero_apply] at hi; positivity⟩
  set k := Real.sqrt (∑ j, n j ^ 2) with hk
  have hk0 : 0 < k := Real.sqrt_pos.2 hq
  have hk2 : k ^ 2 = ∑ j, n j ^ 2 := Real.sq_sqrt hq.le
  have e : ∀ a b, ∑ j, n j / k * (s.v a j - s.v b j) = (∑ j, n j * (s.v a j - s.v b j)) / k := by
    intro a b
    rw [Finset.sum_div]
    exact Finset.sum_congr rfl fun j _ => by ring
  obtain ⟨r, r0, hr⟩ := unitOutward_of hD hs ht (n := fun j => n j / k) (by
      simp only [div_pow]
      rw [← Finset.sum_div, hk2, div_self hq.ne']) (fun a ha c hc => by rw [e, h2 a ha c hc, zero_div])
  refine ⟨r * k, mul_ne_zero r0 hk0.ne', fun a ha => ?_⟩
  have := hr a ha
  rw [e, div_eq_iff hk0.ne'] at this
  exact this

/-- Simplices with normals to their facets satisfy the requirements on factors. -/
theorem geomOK_simplex {out : Prop} {c : CellData ℝ} {D : ℕ} (hD : 1 ≤ D) (hgood : GoodCell c) (hcoord : ∀ x ∈ c.verts, x.length = D)
    (hk : IntKeys c.topo) (hs : ProperSimplex ℝ (c.toSimplex D)) {nrm : ℕ → Option (Fin D → ℝ)} (hn : FacetNormals (c.toSimplex D) nrm)
    (hout : out → ∀ e t (off : Fin (D + 1)) n, HasEntity (c.toSimplex D).topo (D - 1) e t → (∀ a, a ∈ t ↔ a < D + 1 ∧ a ≠ off) → nrm e = some n →
      ∀ a ∈ t, 0 < ∑ j, n j * ((c.toSimplex D).v a j - (c.toSimplex D).v off j)) (vol : Option ℝ) :
    GeomOK out (simplexGeom c D nrm vol) := by
  have hlen : c.verts.length = D + 1 := by
    have := hs.2.1.nverts
    rw [hs.1] at this
    simpa [CellData.toSimplex] using this
  refine ⟨hgood, hcoord, ?_, ?_, ?_, ?_⟩
  · intro k e v h
    obtain ⟨es, h1, h2⟩ := h
    obtain ⟨d, rfl⟩ := hk _ (Dict.mem_of_get? h1)
    refine ⟨d, ?_, rfl⟩
    have := (toSimplex_entity hk D d e v).2 ⟨es, h1, h2⟩
    obtain ⟨t1, t2, t3⟩ := hs.2.1.entity _ _ _ this
    rw [hs.1] at t3
    have : v.toFinset ⊆ Finset.range (D + 1) := fun a ha => Finset.mem_range.2 (t3 a (List.mem_toFinset.1 ha))
    have := Finset.card_le_card this
    rw [List.toFinset_card_of_nodup t1, Finset.card_range, t2] at this
    show d ≤ D
    omega
  · intro e v h
    have h := (toSimplex_entity hk D D e v).2 h
    refine ⟨?_, ?_⟩
    · exact hs.2.2.2.2.1 e v h
    · obtain ⟨t1, t2, t3⟩ := hs.2.1.entity _ _ _ h
      rw [hs.1] at t3
      have hsub : v.toFinset ⊆ Finset.range (D + 1) := fun a ha => Finset.mem_range.2 (t3 a (List.mem_toFinset.1 ha))
      have := Finset.eq_of_subset_of_card_le hsub (by rw [List.toFinset_card_of_nodup t1, Finset.card_range, t2])
      intro a ha
      have ha : a < c.verts.length := ha
      rw [← List.mem_toFinset, this, Finset.mem_range]
      omega
  · obtain ⟨v, hv⟩ := hs.2.2.2.1
    exact ⟨v, (toSimplex_entity hk D D 0 v).1 hv⟩
  · intro _ e v h
    have h : HasEntity (c.toSimplex D).topo (D - 1) e v := (toSimplex_entity hk D (D - 1) e v).2 h
    obtain ⟨n, n1, n2, n3⟩ := hn e v h
    obtain ⟨off, hoff⟩ := facet_opposite hD hs h
    have hpos : 0 < ‖n‖ := norm_pos_iff.2 n2
    have hpair : ∀ a b x y, c.verts[a]? = some x → c.verts[b]? = some y →
        pairing (List.ofFn fun i => n i / ‖n‖) x y = (∑ j, n j * ((c.toSimplex D).v a j - (c.toSimplex D).v b j)) / ‖n‖ := by
      intro a b x y hx hy
      rw [toSimplex_v hx (hcoord _ (List.mem_of_getElem? hx)), toSimplex_v hy (hcoord _ (List.mem_of_getElem? hy)), pairing_ofFn,
        Finset.sum_div]
      exact Finset.sum_congr rfl fun j _ => by ring
    refine ⟨List.ofFn fun i => n i / ‖n‖, ?_, List.length_ofFn, ⟨?_, ?_, ?_, ?_⟩⟩
    · show (if D - 1 + 1 = D then _ else _) = _
      rw [if_pos (by omega), n1]
      rfl
    · intro x hx
      obtain ⟨i, rfl⟩ := (List.mem_ofFn' _ _).1 hx
      rw [abs_div, abs_of_pos hpos, div_le_one hpos]
      exact norm_le_pi_norm n i
    · obtain ⟨i, hi⟩ : ∃ i, ‖n i‖ = ‖n‖ := by
        have : Nonempty (Fin D) := ⟨⟨0, hD⟩⟩
        obtain ⟨i, -, hi⟩ := Finset.exists_max_image Finset.univ (fun i => ‖n i‖) Finset.univ_nonempty
        exact ⟨i, le_antisymm (norm_le_pi_norm n i) ((pi_norm_le_iff_of_nonneg (norm_nonneg _)).2 fun j => hi j (Finset.mem_univ _))⟩
      refine ⟨n i / ‖n‖, (List.mem_ofFn' _ _).2 ⟨i, rfl⟩, ?_⟩
      rw [abs_div, abs_of_pos hpos, ← hi, Real.norm_eq_abs, div_self]
      rw [← Real.norm_eq_abs, hi]
      exact hpos.ne'
    · intro a ha b hb x y hx hy
      rw [hpair a b x y hx hy, n3 a ha b hb, zero_div]
    · obtain ⟨k, k0, hk'⟩ := side_of hD hs hoff n2 n3
      refine ⟨SignType.sign k, ?_, ?_, ?_⟩
      · rcases lt_or_gt_of_ne k0 with h0 | h0
        · right; rw [sign_neg h0]; rfl
        · left; rw [sign_pos h0]; rfl
      · intro ho
        obtain ⟨a, ha⟩ : ∃ a, a ∈ v := List.exists_mem_of_ne_nil _ (by
          have := (hs.2.1.entity _ _ _ h).2.1
          intro h0; rw [h0] at this; simp at this)
        have := hout ho e v off n h hoff n1 a ha
        rw [hk' a ha] at this
        rw [sign_pos this]; rfl
      · intro a ha b hb x y hx hy
        have hb' : b = off := by
          by_contra hne
          have : b < c.verts.length := (List.getElem?_eq_some_iff.1 hy).1
          exact hb ((hoff b).2 ⟨by omega, hne⟩)
        rw [hpair a b x y hx hy, hb', hk' a ha, ← mul_div_assoc]
        refine div_pos ?_ hpos
        rw [sign_mul_self]
        exact abs_pos.2 k0

/-- A flattened product (`UFCQuadrilateral`, `UFCHexahedron`) can itself be a factor. -/
theorem geomOK_flat {out : Prop} (gs : List CellGeom) (hg : ∀ g ∈ gs, GeomOK out g) (c : CellData ℝ) (hgood : GoodCell c)
    (hv : c.verts = (tensorProductCell (gs.map CellGeom.data)).verts)
    (hc : IsFlatOf (tensorProductCell (gs.map CellGeom.data)).topo c.topo) : GeomOK out (flatGeom gs c) := by
  have hgoods : ∀ c ∈ gs.map CellGeom.data, GoodCell c := by
    intro c hc
    obtain ⟨g', hg', rfl⟩ := List.mem_map.1 hc
    exact (hg g' hg').good
  have hle : ∀ {gs : List CellGeom} {ds : List ℕ}, List.Forall₂ (fun d (g : CellGeom) => d ≤ g.dim) ds gs →
      ds.sum ≤ (gs.map CellGeom.dim).sum ∧ ((gs.map CellGeom.dim).sum ≤ ds.sum → ds = gs.map CellGeom.dim) := by
    intro gs ds h
    induction h with
    | nil => exact ⟨le_rfl, fun _ => rfl⟩
    | @cons d g ds gs h1 h2 ih =>
      simp only [List.sum_cons, List.map_cons, List.cons.injEq]
      refine ⟨by omega, fun h => ?_⟩
      have := ih.2 (by omega)
      exact ⟨by rw [this] at h; omega, this⟩
  -- the product entity behind an entity of the flat cell
  have hback : ∀ d e v, HasEntity c.topo (.int d) e v → ∃ F D e', IsFactors (gs.map CellGeom.data) F ∧ ∃ ds : List ℕ,
      F.map Factor.dim = ds.map Key.int ∧ D = Key.tup (ds.map Key.int) ∧ List.Forall₂ (fun d (g : CellGeom) => d ≤ g.dim) ds gs ∧ d = ds.sum ∧
      HasEntity (tensorProductCell (gs.map CellGeom.data)).topo D e' v ∧
      (computeUnflatteningMap (tensorProductCell (gs.map CellGeom.data)).topo).get? (d, e) = some (D, e') ∧
      e' = ravel (F.map Factor.ent) (eshape (gs.map CellGeom.data) F) ∧ v = productVerts (gs.map CellGeom.data) F := by
    intro d e v h
    have h1 := (hc.same _ _ _).1 h
    obtain ⟨⟨D, e'⟩, hD⟩ := Option.isSome_iff_exists.1 ((unflatten_domain _ hc.sorted _ _).1 (by rw [h1]; rfl))
    obtain ⟨s1, m, v', s2, s3, s4⟩ := unflatten_sound _ hc.wf.1 hc.wf.2 hc.sorted _ _ _ _ hD
    rw [h1, Option.some.injEq] at s4
    subst s4
    have hent : HasEntity (tensorProductCell (gs.map CellGeom.data)).topo D e' v := ⟨m, s2, s3⟩
    obtain ⟨F, hF, hk, -, hi, hvs⟩ := tensor_entity_conv _ hgoods _ _ _ hent
    obtain ⟨ds, e1, e2⟩ := factor_dims hg hF
    rw [e1] at hk
    refine ⟨F, D, e', hF, ds, e1, hk, e2, ?_, hent, hD, hi, hvs⟩
    rw [s1, hk, tupleSum_tup]
  -- entities of full dimension
  have htop : ∀ e v, HasEntity c.topo (.int (gs.map CellGeom.dim).sum) e v →
      (computeUnflatteningMap (tensorProductCell (gs.map CellGeom.data)).topo).get? ((gs.map CellGeom.dim).sum, e) =
        some (Key.tup ((gs.map CellGeom.dim).map Key.int), 0) ∧
      HasEntity (tensorProductCell (gs.map CellGeom.data)).topo (Key.tup ((gs.map CellGeom.dim).map Key.int)) 0 v ∧
      ∀ a < (vshape (gs.map CellGeom.data)).prod, a ∈ v := by
    intro e v h
    obtain ⟨F, D, e', hF, ds, e1, hD, e2, e3, e4, e5, e6, e7⟩ := hback _ _ _ h
    have hds := (hle e2).2 (by omega)
    rw [hds] at e1 hD
    obtain ⟨t1, t2, t3⟩ := top_factors hg hF (by rw [e1, List.map_map]; rfl)
    have h0 : e' = 0 := by
      rw [e6]
      exact ravel_zero (fun i hi => by obtain ⟨f, hf, rfl⟩ := List.mem_map.1 hi; exact t1 f hf) _
    rw [hD, h0] at e5 e4
    refine ⟨e5, e4, fun a ha => ?_⟩
    obtain ⟨u1, u2⟩ := unravel_spec ha
    rw [e7, ← u2, tensor_vertex_mem _ hgoods _ hF _ u1]
    exact t3 _ u1
  have hlen : c.verts.length = (vshape (gs.map CellGeom.data)).prod := by rw [hv, tensor_vertices_length]
  have hone : ∃ e v, HasEntity c.topo (.int (gs.map CellGeom.dim).sum) e v := by
    have hex : ∀ gs : List CellGeom, (∀ g ∈ gs, GeomOK out g) → ∃ F, IsFactors (gs.map CellGeom.data) F ∧
        F.map Factor.dim = (gs.map CellGeom.dim).map Key.int := by
      intro gs hg
      induction gs with
      | nil => exact ⟨[], .nil, rfl⟩
      | cons g gs ih =>
        obtain ⟨F, h1, h2⟩ := ih fun g h => hg g (by simp [h])
        obtain ⟨v, hv⟩ := (hg g (by simp)).one
        exact ⟨⟨.int g.dim, 0, v⟩ :: F, .cons hv h1, by rw [List.map_cons, h2]; rfl⟩
    obtain ⟨F, h1, h2⟩ := hex gs hg
    have hent := tensor_entity _ hgoods F h1
    rw [h2] at hent
    obtain ⟨m, m1, m2⟩ := hent
    obtain ⟨i, hi, -⟩ := unflatten_bijective _ hc.wf.1 hc.wf.2 _ _ _ _ m1 m2
    obtain ⟨-, m', v, w1, w2, w3⟩ := unflatten_sound _ hc.wf.1 hc.wf.2 hc.sorted _ _ _ _ hi
    rw [tupleSum_tup] at w3
    exact ⟨i, v, (hc.same _ _ _).2 w3⟩
  have hzero : ∃ v, HasEntity c.topo (.int (gs.map CellGeom.dim).sum) 0 v := by
    obtain ⟨e, v, es, h1, h2⟩ := hone
    have hnum := hgood.numbered _ _ (Dict.mem_of_get? h1)
    have he : e ∈ pySorted (Dict.keys es) := mem_pySorted.2 (List.mem_map.2 ⟨_, Dict.mem_of_get? h2, rfl⟩)
    rw [hnum, List.mem_range] at he
    have h0 : 0 ∈ Dict.keys es := by
      rw [← mem_pySorted, hnum, List.mem_range]
      omega
    obtain ⟨⟨e0, v0⟩, hm, he0⟩ := List.mem_map.1 h0
    have he0 : e0 = 0 := he0
    subst he0
    exact ⟨v0, es, h1, Dict.get?_of_mem (hgood.wf.2 _ (Dict.mem_of_get? h1)) hm⟩
  refine ⟨hgood, ?_, ?_, ?_, hzero, ?_⟩
  · intro x hx
    have hx : x ∈ c.verts := hx
    obtain ⟨b, hb⟩ := List.getElem?_of_mem hx
    rw [hv] at hb
    obtain ⟨ps, -, rfl, hps⟩ := vertex_split hb
    exact flatten_length hg hps
  · intro k e v h
    obtain ⟨d, rfl⟩ := hc.ints _ _ _ h
    obtain ⟨F, D, e', hF, ds, e1, hD, e2, e3, -⟩ := hback _ _ _ h
    exact ⟨d, by rw [e3]; exact (hle e2).1, rfl⟩
  · intro e v h
    obtain ⟨g1, ⟨m, m1, m2⟩, g3⟩ := htop e v h
    obtain ⟨v0, hv0⟩ := hzero
    obtain ⟨k1, k2, k3⟩ := htop 0 v0 hv0
    obtain ⟨i, hi, hu⟩ := unflatten_bijective _ hc.wf.1 hc.wf.2 _ _ _ _ m1 m2
    rw [tupleSum_tup] at hu
    refine ⟨(hu e g1).trans (hu 0 k1).symm, fun a ha => g3 a ?_⟩
    rw [← hlen]
    exact ha
  · intro hd e v h
    have hd : 1 ≤ (gs.map CellGeom.dim).sum := hd
    obtain ⟨h1, -⟩ := flat_reference_normal_spec gs hg c hv hc ((gs.map CellGeom.dim).sum - 1) (by omega)
    obtain ⟨r, r1, r2, r3⟩ := h1 e v h
    exact ⟨r, r1, by rw [r2]; show _ = (gs.map CellGeom.dim).sum; omega, r3⟩

theorem mem_nonzeroDims {cells : List CellGeom} {facet_dim : List ℕ} (hl : facet_dim.length = cells.length) (i : ℕ) :
    i ∈ nonzeroDims cells facet_dim ↔ i < cells.length ∧ (cells.map CellGeom.dim)[i]? ≠ facet_dim[i]? := by
  unfold nonzeroDims
  simp only [List.mem_map, List.mem_filter, decide_eq_true_eq]
  constructor
  · rintro ⟨q, ⟨h1, h2⟩, rfl⟩
    have h3 := List.mem_zipIdx_iff_getElem?.1 h1
    rw [List.getElem?_zip_eq_some] at h3
    refine ⟨(List.getElem?_eq_some_iff.1 h3.1).1, ?_⟩
    rw [List.getElem?_map, h3.1, h3.2]
    simpa using h2
  · rintro ⟨h1, h2⟩
    have h1' : i < facet_dim.length := by omega
    refine ⟨((cells[i], facet_dim[i]), i), ⟨?_, ?_⟩, rfl⟩
    · rw [List.mem_zipIdx_iff_getElem?, List.getElem?_zip_eq_some]
      exact ⟨List.getElem?_eq_getElem h1, List.getElem?_eq_getElem h1'⟩
    · intro h3
      apply h2
      rw [List.getElem?_map, List.getElem?_eq_getElem h1, List.getElem?_eq_getElem h1']
      exact congrArg some h3

/-- **C67.** `TensorProductCell.compute_reference_normal` fails unless `facet_dim` has one entry per factor, exactly one of which differs from
the dimension of that factor. -/
theorem tensor_reference_normal_reject (cells : List CellGeom) (facet_dim : List ℕ) (facet : ℕ)
    (h : facet_dim.length ≠ cells.length ∨ ¬ ∃! i : ℕ, i < cells.length ∧ (cells.map CellGeom.dim)[i]? ≠ facet_dim[i]?) :
    tensorReferenceNormal cells facet_dim facet = none := by
  unfold tensorReferenceNormal
  by_cases hl : facet_dim.length ≠ cells.length
  · rw [if_pos hl]
  · rw [if_neg hl]
    push Not at hl
    have hex : ¬ ∃! i : ℕ, i < cells.length ∧ (cells.map CellGeom.dim)[i]? ≠ facet_dim[i]? := h.resolve_left fun h => h hl
    split
    · rename_i ci hci
      exfalso
      refine hex ⟨ci, (mem_nonzeroDims hl ci).1 (by rw [hci]; simp), fun j hj => ?_⟩
      have := (mem_nonzeroDims hl j).2 hj
      rw [hci] at this
      simpa using this
    · rfl

/-! ### Volumes -/


/-- **C67.** `TensorProductCell.volume()` is the volume of the product of the factors, if the volumes of the factors are right. -/
theorem tensor_volume_spec {n : ℕ} (g : Fin n → CellGeom) (K : ∀ i, Set (Fin (g i).dim → ℝ))
    (h : ∀ i, ∃ v : ℝ, 0 ≤ v ∧ (g i).volume = some v ∧ MeasureTheory.MeasureSpace.volume (K i) = ENNReal.ofReal v) :
    ∃ v : ℝ, 0 ≤ v ∧ tensorVolume (List.ofFn g) = some v ∧ MeasureTheory.MeasureSpace.volume (Set.univ.pi K) = ENNReal.ofReal v := by
  choose v h0 h1 h2 using h
  refine ⟨∏ i, v i, Finset.prod_nonneg fun i _ => h0 i, ?_, ?_⟩
  · unfold tensorVolume
    have : ∀ (m : ℕ) (g : Fin m → CellGeom) (v : Fin m → ℝ), (∀ i, (g i).volume = some (v i)) →
        (List.ofFn g).mapM (fun (c : CellGeom) => c.volume) = some (List.ofFn v) := by
      intro m
      induction m with
      | zero => intro g v _; rw [List.ofFn_zero, List.ofFn_zero]; rfl
      | succ m ih =>
        intro g v hv
        rw [List.ofFn_succ, List.ofFn_succ, List.mapM_cons, hv 0, ih _ (fun i => v i.succ) fun i => hv i.succ]
        rfl
    rw [this n g v h1, Option.map_some, List.prod_ofFn]
  · rw [MeasureTheory.volume_pi_pi, ENNReal.ofReal_prod_of_nonneg fun i _ => h0 i]
    exact Finset.prod_congr rfl fun i _ => h2 i

/-- **C67.** For factors that are simplices with the vertices `w i` (not tiny, at most three-dimensional), `volume()` is the Lebesgue measure
of the product of the simplices. -/
theorem tensor_volume_simplices {L : LinAlg} (hL : LinAlgOK L) {n : ℕ} (c : Fin n → CellData ℝ) (D : Fin n → ℕ) (hD : ∀ i, D i ≤ 3)
    (nrm : ∀ i, ℕ → Option (Fin (D i) → ℝ)) (w : ∀ i, Fin (D i + 1) → Fin (D i) → ℝ) (hi : ∀ i, AffineIndependent ℝ (w i))
    (hw : ∀ i, NotTiny (List.ofFn (w i))) :
    ∃ v : ℝ, 0 ≤ v ∧ tensorVolume (List.ofFn fun i => simplexGeom (c i) (D i) (nrm i) (volume L (List.ofFn (w i)))) = some v ∧
      MeasureTheory.MeasureSpace.volume (Set.univ.pi fun i => convexHull ℝ (Set.range (w i))) = ENNReal.ofReal v := by
  refine tensor_volume_spec (fun i => simplexGeom (c i) (D i) (nrm i) (volume L (List.ofFn (w i))))
    (fun i => convexHull ℝ (Set.range (w i))) fun i => ?_
  refine ⟨_, ENNReal.toReal_nonneg, volume_measure hL (hD i) (w i) (hi i) (hw i), ?_⟩
  have hb : Bornology.IsBounded (convexHull ℝ (Set.range (w i))) := isBounded_convexHull.2 (Set.finite_range (w i)).isBounded
  have := hb.measure_lt_top (μ := (MeasureTheory.MeasureSpace.volume : MeasureTheory.Measure (Fin (D i) → ℝ)))
  exact (ENNReal.ofReal_toReal this.ne).symm

/-- The unit cube. -/
example : ∃ v : ℝ, 0 ≤ v ∧ tensorVolume (List.ofFn fun _ : Fin 3 => simplexGeom ufcInterval 1 (fun _ => none) (some 1)) = some v ∧
    MeasureTheory.MeasureSpace.volume (Set.univ.pi fun _ : Fin 3 => (Set.Icc 0 1 : Set (Fin 1 → ℝ))) = ENNReal.ofReal v :=
  tensor_volume_spec (fun _ : Fin 3 => simplexGeom ufcInterval 1 (fun _ => none) (some 1)) (fun _ => (Set.Icc 0 1 : Set (Fin 1 → ℝ)))
    fun _ => ⟨1, zero_le_one, rfl, by
      have : MeasureTheory.MeasureSpace.volume (Set.Icc 0 1 : Set (Fin 1 → ℝ)) = ENNReal.ofReal 1 := by rw [Real.volume_Icc_pi]; simp
      exact this⟩

/-! ### The cells of the library -/

/-- Simplices whose class does not override `compute_normal`, such as the UFC interval. -/
theorem geomOK_generic {L : LinAlg} (hL : LinAlgOK L) {pop : List ℕ → ℕ} (hpop : ∀ t : List ℕ, t ≠ [] → pop t ∈ t) {c : CellData ℝ} {D : ℕ}
    (hD : 1 ≤ D) (hgood : GoodCell c) (hcoord : ∀ x ∈ c.verts, x.length = D) (hk : IntKeys c.topo) (hs : ProperSimplex ℝ (c.toSimplex D))
    (hl : LargeEnough (c.toSimplex D)) (vol : Option ℝ) : GeomOK True (simplexGeom c D (computeNormal L pop (c.toSimplex D)) vol) := by
  refine geomOK_simplex hD hgood hcoord hk hs (compute_normal_contract hL hpop hD hs hl) ?_ vol
  intro _ e t off n h ht hn a ha
  obtain ⟨n', h1, h2, -⟩ := compute_normal_spec hL hpop hD hs hl h ht
  rw [hn, Option.some.injEq] at h1
  subst h1
  exact h2.outward a ha

/-- The UFC interval. -/
theorem geomOK_interval {L : LinAlg} (hL : LinAlgOK L) {pop : List ℕ → ℕ} (hpop : ∀ t : List ℕ, t ≠ [] → pop t ∈ t) (vol : Option ℝ) :
    GeomOK True (simplexGeom ufcInterval 1 (computeNormal L pop ((ufcInterval : CellData ℝ).toSimplex 1)) vol) := by
  refine geomOK_generic hL hpop le_rfl good_interval ?_ ?_ proper_ufcInterval ?_ vol
  · intro x hx
    simp only [ufcInterval, List.mem_cons, List.not_mem_nil, or_false] at hx
    rcases hx with rfl | rfl <;> rfl
  · intro p hp
    obtain ⟨q, -, rfl⟩ := List.mem_map.1 hp
    exact ⟨q.2, rfl⟩
  · refine largeEnough_of_edges (r := 1) (by norm_num) (by norm_num) ?_
    intro i j
    fin_cases i <;> fin_cases j
    simp [SimplexCell.v, CellData.toSimplex, ufcInterval]

/-- The UFC triangle, with its own `compute_normal`. -/
theorem geomOK_triangle (vol : Option ℝ) :
    GeomOK False (simplexGeom ufcTriangle 2 (ufcNormal 2 ((ufcTriangle : CellData ℝ).toSimplex 2)) vol) := by
  refine geomOK_simplex (by norm_num) good_triangle ?_ ?_ proper_ufcTriangle (ufc_triangle_unit_normals _ proper_ufcTriangle) (fun h => h.elim) vol
  · intro x hx
    simp only [ufcTriangle, List.mem_cons, List.not_mem_nil, or_false] at hx
    rcases hx with rfl | rfl | rfl <;> rfl
  · intro p hp
    obtain ⟨q, -, rfl⟩ := List.mem_map.1 hp
    exact ⟨q.2, rfl⟩

theorem GeomOK.weaken {out : Prop} {g : CellGeom} (h : GeomOK out g) : GeomOK False g := by
  refine ⟨h.good, h.coords, h.dims, h.top, h.one, fun hd e v he => ?_⟩
  obtain ⟨r, r1, r2, r3⟩ := h.normal hd e v he
  obtain ⟨σ, s1, -, s3⟩ := r3.side
  exact ⟨r, r1, r2, r3.le, r3.eq, r3.orth, σ, s1, fun h => h.elim, s3⟩

/-- **C67.** `UFCQuadrilateral.compute_reference_normal(1, i)` is the outward normal of edge `i` of maximum norm 1, and
`UFCHexahedron.compute_reference_normal(2, i)` that of face `i`; other `facet_dim` are rejected. -/
theorem ufc_quad_hex_reference_normals {L : LinAlg} (hL : LinAlgOK L) {pop : List ℕ → ℕ} (hpop : ∀ t : List ℕ, t ≠ [] → pop t ∈ t)
    (vol : Option ℝ) :
    let I := simplexGeom ufcInterval 1 (computeNormal L pop ((ufcInterval : CellData ℝ).toSimplex 1)) vol
    ((∀ facet vs, HasEntity (ufcQuadrilateral : CellData ℝ).topo (.int 1) facet vs →
      ∃ r, flatReferenceNormal [I, I] 1 1 facet = some r ∧ r.length = 2 ∧ ReferenceNormal True ufcQuadrilateral vs r) ∧
      ∀ facet_dim, facet_dim ≠ 1 → ∀ facet, flatReferenceNormal [I, I] 1 facet_dim facet = none) ∧
    ((∀ facet vs, HasEntity (ufcHexahedron : CellData ℝ).topo (.int 2) facet vs →
      ∃ r, flatReferenceNormal [I, I, I] 2 2 facet = some r ∧ r.length = 3 ∧ ReferenceNormal True ufcHexahedron vs r) ∧
      ∀ facet_dim, facet_dim ≠ 2 → ∀ facet, flatReferenceNormal [I, I, I] 2 facet_dim facet = none) := by
  intro I
  have hI : GeomOK True I := geomOK_interval hL hpop vol
  exact ⟨flat_reference_normal_spec [I, I] (by simp [hI]) ufcQuadrilateral rfl quad_flat 1 rfl,
    flat_reference_normal_spec [I, I, I] (by simp [hI]) ufcHexahedron rfl hex_flat 2 rfl⟩

/-- A quadrilateral times an interval, and a triangle times an interval, are products covered by `tensor_reference_normal_spec`. -/
example {L : LinAlg} (hL : LinAlgOK L) {pop : List ℕ → ℕ} (hpop : ∀ t : List ℕ, t ≠ [] → pop t ∈ t) (vol : Option ℝ) :
    let I := simplexGeom ufcInterval 1 (computeNormal L pop ((ufcInterval : CellData ℝ).toSimplex 1)) vol
    let T := simplexGeom ufcTriangle 2 (ufcNormal 2 ((ufcTriangle : CellData ℝ).toSimplex 2)) vol
    (∀ g ∈ [flatGeom [I, I] ufcQuadrilateral, I], GeomOK True g) ∧ ∀ g ∈ [T, I], GeomOK False g := by
  intro I T
  have hI : GeomOK True I := geomOK_interval hL hpop vol
  have hQ := geomOK_flat (out := True) [I, I] (by simp [hI]) ufcQuadrilateral good_quadrilateral rfl quad_flat
  exact ⟨by simp [hI, hQ], by simp [hI.weaken, T, geomOK_triangle vol]⟩

/-- **C67.** On the prism `TensorProductCell(UFCTriangle(), UFCInterval())` the reference normal of the facet `x = 0` is `(1, 0, 0)`: it points
into the cell, because `UFCTriangle.compute_normal` does not choose the outward one. -/
theorem prism_normal_inward (nrm : ℕ → Option (Fin 1 → ℝ)) (vol : Option ℝ) :
    let I := simplexGeom ufcInterval 1 nrm vol
    let T := simplexGeom ufcTriangle 2 (ufcNormal 2 ((ufcTriangle : CellData ℝ).toSimplex 2)) vol
    HasEntity (tensorProductCell [(ufcTriangle : CellData ℝ), ufcInterval]).topo (Key.tup [.int 1, .int 1]) 1 [0, 1, 4, 5] ∧
      tensorReferenceNormal [T, I] [1, 1] 1 = some [1, 0, 0] ∧
      ¬ ReferenceNormal True (tensorProductCell [(ufcTriangle : CellData ℝ), ufcInterval]) [0, 1, 4, 5] [1, 0, 0] := by
  intro I T
  refine ⟨⟨_, rfl, rfl⟩, ?_, ?_⟩
  · have hn : triangleNormal (fun i : Fin 2 => ((([0, 0] : List ℝ))[(i : ℕ)]?).getD 0) (fun i : Fin 2 => ((([0, 1] : List ℝ))[(i : ℕ)]?).getD 0) =
        ![1, 0] := by
      unfold triangleNormal
      have : norm2 ![(1 : ℝ), 0] = 1 := by simp [norm2]
      funext i
      fin_cases i <;> simp [this]
    have hT : T.refNormal 1 1 = some [1, 0] := by
      show (if 1 + 1 = 2 then (ufcNormal 2 ((ufcTriangle : CellData ℝ).toSimplex 2) 1).map (fun n => List.ofFn fun i => n i / ‖n‖)
        else none) = some ([1, 0] : List ℝ)
      rw [if_pos rfl]
      have h1 : ufcNormal 2 ((ufcTriangle : CellData ℝ).toSimplex 2) 1 = some ![1, 0] := by
        rw [← hn]
        rfl
      rw [h1, Option.map_some]
      have : ‖(![1, 0] : Fin 2 → ℝ)‖ = 1 := by
        refine le_antisymm ((pi_norm_le_iff_of_nonneg zero_le_one).2 fun i => by fin_cases i <;> simp) ?_
        have := norm_le_pi_norm (![1, 0] : Fin 2 → ℝ) 0
        simpa using this
      rw [this]
      simp
    have : tensorReferenceNormal [T, I] [1, 1] 1 = (([T.refNormal 1 1, some [0]] : List (Option (List ℝ))).mapM id).map List.flatten := rfl
    rw [this, hT]
    rfl
  · intro h
    obtain ⟨σ, -, h1, h2⟩ := h.side
    have h3 := h2 0 (by simp) 2 (by simp) [0, 0, 0] [1, 0, 0] rfl rfl
    rw [h1 trivial] at h3
    norm_num [pairing] at h3

end
end FIAT
