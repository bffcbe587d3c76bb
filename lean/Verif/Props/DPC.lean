/-
C63: the discontinuous elements with complete polynomials on hypercubes (DPC).
-/
import Verif.Model.DPC
import Verif.Lemmas.Jets
import Verif.Props.Lagrange
import Mathlib.Algebra.BigOperators.Field
import Verif.Props.Discontinuous

namespace FIAT
open MvPolynomial

/-! ### The lattice commutes with affine maps -/
section image
variable {D : ℕ}

/-- The simplex with its vertices moved. -/
private def moveCell (s : SimplexCell (Fin D → ℝ)) (f : (Fin D → ℝ) → Fin D → ℝ) : SimplexCell (Fin D → ℝ) :=
  { s with verts := s.verts.map f }

variable (A : Matrix (Fin D) (Fin D) ℝ) (b : Fin D → ℝ)

private theorem lattice_move (v0 : Fin D → ℝ) (vs : List (Fin D → ℝ)) (n c : ℕ) :
    makeLattice ℝ (A.mulVec v0 + b) (vs.map fun x => A.mulVec x + b) n c =
      (makeLattice ℝ v0 vs n c).map fun x => A.mulVec x + b := by
  unfold makeLattice
  simp only [List.length_map, List.map_map]
  refine List.map_congr_left fun idx _ => ?_
  have key : ∀ (idx : List ℕ) (vs : List (Fin D → ℝ)),
      natCombo ℝ idx (vs.map ((fun v => ((n : ℝ)⁻¹) • (v - (A.mulVec v0 + b))) ∘ fun x => A.mulVec x + b)) =
        A.mulVec (natCombo ℝ idx (vs.map fun v => ((n : ℝ)⁻¹) • (v - v0))) := by
    intro idx vs
    induction idx generalizing vs with
    | nil => simp [natCombo]
    | cons i idx ih =>
      cases vs with
      | nil => simp [natCombo]
      | cons v vs =>
        have h := ih vs
        unfold natCombo at h ⊢
        simp only [List.map_cons, List.zipWith_cons_cons, List.sum_cons, Matrix.mulVec_add, h, Matrix.mulVec_smul, Matrix.mulVec_sub,
          Function.comp_apply, add_sub_add_right_eq_sub]
  simp only [Function.comp_apply, key, Matrix.mulVec_add]
  abel

private theorem points_move (s : SimplexCell (Fin D → ℝ)) (d e k : ℕ) :
    makePoints ℝ (moveCell s fun x => A.mulVec x + b) d e k =
      (makePoints ℝ s d e k).map fun pts => pts.map fun x => A.mulVec x + b := by
  have hL : ∀ (vs : List (Fin D → ℝ)) (c : ℕ), makeLatticeL ℝ (vs.map fun x => A.mulVec x + b) k c =
      (makeLatticeL ℝ vs k c).map fun pts => pts.map fun x => A.mulVec x + b := by
    intro vs c
    cases vs with
    | nil => rfl
    | cons v0 vs => simp only [List.map_cons, makeLatticeL, Option.map_some, lattice_move]
  have hV : ∀ t : List ℕ, verticesOf (moveCell s fun x => A.mulVec x + b) t =
      (verticesOf s t).map fun vs => vs.map fun x => A.mulVec x + b := by
    intro t
    unfold verticesOf moveCell
    induction t with
    | nil => rfl
    | cons i t ih =>
      simp only [List.mapM_cons, List.getElem?_map, Option.bind_eq_bind, Option.pure_def] at ih ⊢
      rw [ih]
      cases s.verts[i]? with
      | none => rfl
      | some v =>
        cases h : List.mapM (fun i => s.verts[i]?) t <;> simp
  unfold makePoints
  rw [show (moveCell s fun x => A.mulVec x + b).sd = s.sd from rfl, show (moveCell s fun x => A.mulVec x + b).topo = s.topo from rfl,
    show (moveCell s fun x => A.mulVec x + b).verts = s.verts.map fun x => A.mulVec x + b from rfl]
  split_ifs with h0 h1 h2
  · rw [List.getElem?_map, Option.map_map, Option.map_map]; rfl
  · cases hg : Dict.get? s.topo d with
    | none => rfl
    | some es =>
      cases hg' : Dict.get? es e with
      | none => simp [hg']
      | some t =>
        simp only [Option.bind_eq_bind, Option.bind_some, hg', hV]
        cases verticesOf s t with
        | none => rfl
        | some vs => simp only [Option.map_some, Option.bind_some, hL]
  · rw [hL]
  · rfl

end image

/-! ### Specification -/
section spec
variable {D : ℕ}

/-- Specification: the points with barycentric coordinates `β / k`, `β` natural numbers with sum `k`, in the simplex with vertices `w`. -/
def EquispacedIn (k : ℕ) (w : Fin (D + 1) → Fin D → ℝ) (x : Fin D → ℝ) : Prop :=
  ∃ β : Fin (D + 1) → ℕ, ∑ i, β i = k ∧ x = ∑ i, ((β i : ℝ) / k) • w i

theorem dpc_points_spec (s : SimplexCell (Fin D → ℝ)) (hs : ProperSimplex ℝ s) (hD : 1 ≤ D) (V : List (Fin D → ℝ))
    (w : Fin (D + 1) → Fin D → ℝ) (hw : AffineIndependent ℝ w) (hV : dpcCorners V = some (List.ofFn w)) (k : ℕ) (hk : 1 ≤ k) :
    ∃ pts, dpcPoints s V k = some pts ∧ pts.length = (k + D).choose D ∧ pts.Nodup ∧ (∀ x, x ∈ pts ↔ EquispacedIn k w x) ∧
      Unisolvent k pts := by
  obtain ⟨hsd, hf, hnd, -⟩ := hs
  have hverts := verts_ofFn s hf hsd
  have hxs : AffineIndependent ℝ fun i : Fin (D + 1) => s.v i := by
    unfold Nondegenerate at hnd
    revert hnd
    generalize s.v = v
    rw [hsd]
    exact id
  obtain ⟨A, b, hAb, hmap, -⟩ := make_affine_mapping_spec (fun i : Fin (D + 1) => s.v i) w hxs
  set s' := moveCell s fun x => A.mulVec x + b with hs'
  have hv' : s'.verts = List.ofFn w := by
    rw [hs']
    show s.verts.map _ = _
    rw [hverts, List.map_ofFn]
    congr 1
    funext i
    exact hmap i
  have hvi : ∀ i : Fin (D + 1), s'.v i = w i := by
    intro i
    unfold SimplexCell.v
    rw [hv', List.getElem?_ofFn, dif_pos i.2]
    rfl
  have hf' : FullSimplex s' := by
    refine ⟨hf.wf, ?_, hf.entity, hf.vertex, hf.all, hf.unique⟩
    rw [hv', List.length_ofFn]
    show D + 1 = s.sd + 1
    rw [hsd]
  have hsd' : s'.sd = D := hsd
  have hnd' : Nondegenerate ℝ s' := by
    unfold Nondegenerate
    have : (fun i : Fin (D + 1) => s'.v i) = w := _root_.funext hvi
    rw [← this] at hw
    revert hw
    generalize s'.v = v
    rw [hsd']
    exact id
  obtain ⟨nodes, ids, hdual, L, hL, hperm⟩ := lagrange_nodes_perm (K := ℝ) s' hf' hnd' k hk (by omega)
  obtain ⟨nodes', ids', hdual', hlen⟩ := lagrange_num_nodes (K := ℝ) s' hf' hnd' k hk (by omega)
  have hu := lagrange_unisolvent (K := ℝ) s' hsd' hf' hnd' hD k hk nodes ids hdual
  rw [hdual, Option.some.injEq, Prod.mk.injEq] at hdual'
  rw [← hdual'.1, hsd'] at hlen
  have hv0 : s'.verts = s'.v 0 :: ((List.range' 1 D).map s'.v) := by
    rw [hv', List.ofFn_succ]
    congr 1
    · exact (hvi 0).symm
    · apply List.ext_getElem
      · simp
      · intro i h1 h2
        rw [List.getElem_ofFn, List.getElem_map, List.getElem_range']
        have := hvi (Fin.succ ⟨i, by simpa using h1⟩)
        rw [← this]
        congr 1
        simp; omega
  have hmemL : ∀ x, x ∈ L ↔ EquispacedIn k w x := by
    intro x
    rw [hv0] at hL
    simp only [makeLatticeL, Option.some.injEq] at hL
    rw [← hL, mem_makeLattice (K := ℝ) s'.v (D + 1) k 0 0 (List.range' 1 D) hk (by
      intro h; have := congrArg List.length h; simp at this; omega) (by
      rw [List.nodup_cons]; exact ⟨by simp, List.nodup_range'⟩) (by
      intro i hi; simp only [List.mem_cons, List.mem_range'_1] at hi; omega)]
    constructor
    · rintro ⟨β, -, -, h1, h2⟩
      refine ⟨fun i => β i, ?_, ?_⟩
      · rw [Fin.sum_univ_eq_sum_range (fun i => β i)]; exact h1
      · rw [h2, baryPt, ← Fin.sum_univ_eq_sum_range (fun i => ((β i : ℝ) / k) • s'.v i)]
        exact Finset.sum_congr rfl fun i _ => by rw [hvi]
    · rintro ⟨β, h1, h2⟩
      refine ⟨fun i => if h : i < D + 1 then β ⟨i, h⟩ else 0, ?_, fun _ _ => Nat.zero_le _, ?_, ?_⟩
      · intro i hi
        refine dif_neg fun h => ?_
        refine hi ?_
        simp only [List.mem_cons, List.mem_range'_1]; omega
      · rw [← Fin.sum_univ_eq_sum_range (fun i => if h : i < D + 1 then β ⟨i, h⟩ else 0), ← h1]
        exact Finset.sum_congr rfl fun i _ => by rw [dif_pos i.2]
      · rw [h2, baryPt, ← Fin.sum_univ_eq_sum_range (fun i => (((if h : i < D + 1 then β ⟨i, h⟩ else 0 : ℕ) : ℝ) / k) • s'.v i)]
        exact Finset.sum_congr rfl fun i _ => by rw [dif_pos i.2, hvi]
  have hnodup : nodes.Nodup := by
    rw [hperm.nodup_iff]
    rw [hv0] at hL
    simp only [makeLatticeL, Option.some.injEq] at hL
    rw [← hL]
    refine make_lattice_nodup _ _ k 0 hk ?_
    rw [← hv0, hv']
    have h := hw.comp_embedding (⟨fun i : Fin (List.ofFn w).length => Fin.cast List.length_ofFn i, Fin.cast_injective _⟩ :
      Fin (List.ofFn w).length ↪ Fin (D + 1))
    have he : (fun i : Fin (List.ofFn w).length => (List.ofFn w).get i) = w ∘
        (⟨fun i : Fin (List.ofFn w).length => Fin.cast List.length_ofFn i, Fin.cast_injective _⟩ :
      Fin (List.ofFn w).length ↪ Fin (D + 1)) := by
      funext i
      exact List.getElem_ofFn _
    rw [he]
    exact h
  refine ⟨nodes, ?_, hlen, hnodup, fun x => (hperm.mem_iff).trans (hmemL x), fun p hp hz => hu p hp hz⟩
  unfold dpcPoints
  rw [hV]
  simp only [Option.bind_eq_bind, Option.bind_some]
  rw [hverts, hAb]
  simp only [Option.bind_some]
  unfold lagrangeDual at hdual
  rw [Option.map_eq_some_iff] at hdual
  obtain ⟨r, hr, he⟩ := hdual
  have hfun : (fun d e => makePoints ℝ s' d e k) =
      fun d e => (makePoints ℝ s d e k).map fun pts => pts.map fun x => A.mulVec x + b := by
    funext d e
    exact points_move A b s d e k
  rw [hfun, show s'.topo = s.topo from rfl] at hr
  rw [hr]
  simp only [Option.bind_some]
  rw [show r.2.1 = nodes from congrArg Prod.fst he]

theorem point_element_nodal (hD : D = 1 ∨ D = 2 ∨ D = 3) (s : SimplexCell (Fin D → ℝ)) (hs : ProperSimplex ℝ s)
    (hv : Increasing fun i : Fin (D + 1) => s.v i) (k : ℕ) (pts : List (Fin D → ℝ)) (hlen : pts.length = (k + D).choose D)
    (hu : Unisolvent k pts) : ∃ el, pointElement s k pts = some el ∧ IsNodalScalar k (pts.map pointEvaluation) el := by
  refine functional_element_spec hD s hs hv k (pts.map pointEvaluation) (by rw [List.length_map, hlen]) ?_ (Or.inr ?_) ?_
  · intro l hl
    obtain ⟨x, _, rfl⟩ := List.mem_map.1 hl
    exact ⟨by simp [pointEvaluation, Dict.WF, Dict.keys], by simp [pointEvaluation, Dict.WF, Dict.keys], by simp [pointEvaluation]⟩
  · intro l hl
    obtain ⟨x, _, rfl⟩ := List.mem_map.1 hl
    rfl
  · intro p hp hz
    refine hu p hp fun x hx => ?_
    rw [← point_eval_scalar]
    exact hz _ (List.mem_map_of_mem hx)

variable {δ : Type} [LinearOrder δ]

/-- C63, in terms of the simplex of the polynomial set, the vertices of the flattened cell and the topology of the given cell: `DPC(cell, k)`,
`k ≥ 1`, is a nodal element with the polynomials of degree at most `k`; its nodes are the evaluations at the `dim P_k` different points of the
equispaced lattice of the simplex with vertices `w`, and all of them belong to the interior of the cell. -/
theorem dpc_element_spec (hD : D = 1 ∨ D = 2 ∨ D = 3) (s : SimplexCell (Fin D → ℝ)) (hs : ProperSimplex ℝ s)
    (hv : Increasing fun i : Fin (D + 1) => s.v i) (V : List (Fin D → ℝ)) (w : Fin (D + 1) → Fin D → ℝ) (hw : AffineIndependent ℝ w)
    (hV : dpcCorners V = some (List.ofFn w)) (topo : Topology δ) (ht : topo.WF) (cell : δ) (hcell : IsCellDim topo cell)
    (k : ℕ) (hk : 1 ≤ k) :
    ∃ el pts ids, dpcElement s V topo k = some (el, pts, ids) ∧ IsNodalScalar k (pts.map pointEvaluation) el ∧ pts.Nodup ∧
      (∀ x, x ∈ pts ↔ EquispacedIn k w x) ∧ AllOnCell topo cell ids ((k + D).choose D) := by
  obtain ⟨pts, h1, h2, h3, h4, h5⟩ := dpc_points_spec s hs (by omega) V w hw hV k hk
  obtain ⟨ids, i1, i2⟩ := discontinuous_all_on_cell topo ht cell hcell pts.length
  obtain ⟨el, e1, e2⟩ := point_element_nodal hD s hs hv k pts h2 h5
  refine ⟨el, pts, ids, ?_, e2, h3, h4, by rw [← h2]; exact i2⟩
  unfold dpcElement
  rw [if_neg (by omega)]
  simp only [Option.bind_eq_bind, h1, Option.bind_some, i1, e1]

/-- C63: `DPC(cell, 0)` consists of the constant 1; its node is the evaluation at the average of the vertices. -/
theorem dpc_zero_spec (hD : D = 1 ∨ D = 2 ∨ D = 3) (s : SimplexCell (Fin D → ℝ)) (hs : ProperSimplex ℝ s)
    (hv : Increasing fun i : Fin (D + 1) => s.v i) (V : List (Fin D → ℝ)) (topo : Topology δ) (ht : topo.WF) (cell : δ)
    (hcell : IsCellDim topo cell) :
    ∃ el ids, dpcElement s V topo 0 = some (el, [averageOf V], ids) ∧ IsNodalScalar 0 [pointEvaluation (averageOf V)] el ∧
      AllOnCell topo cell ids 1 := by
  obtain ⟨ids, i1, i2⟩ := p0_all_on_cell topo ht cell hcell
  obtain ⟨el, e1, e2⟩ := point_element_nodal hD s hs hv 0 [averageOf V] (by simp) (by
    intro p hp hz
    have hc := totalDegree_eq_zero_iff_eq_C.1 (Nat.le_zero.1 hp)
    have h := hz _ (List.mem_singleton.2 rfl)
    rw [hc, eval_C] at h
    rw [hc, h, C_0])
  refine ⟨el, ids, ?_, e2, i2⟩
  unfold dpcElement
  rw [if_pos rfl]
  simp only [Option.bind_eq_bind, Option.bind_some, i1, e1]

end spec

/-! ### The shipped cells -/
section cells
variable {δ : Type} [LinearOrder δ]

/-- C63: on any line the DPC element is the discontinuous Lagrange element: the nodes are the `k + 1` equispaced points. -/
theorem dpc_line (s : SimplexCell (Fin 1 → ℝ)) (hs : ProperSimplex ℝ s) (hv : Increasing fun i : Fin 2 => s.v i) (topo : Topology δ)
    (ht : topo.WF) (cell : δ) (hcell : IsCellDim topo cell) (k : ℕ) (hk : 1 ≤ k) :
    ∃ el pts ids, dpcElement s s.verts topo k = some (el, pts, ids) ∧ IsNodalScalar k (pts.map pointEvaluation) el ∧ pts.Nodup ∧
      (∀ x, x ∈ pts ↔ EquispacedIn k (fun i : Fin 2 => s.v i) x) ∧ AllOnCell topo cell ids (k + 1) := by
  have hV := verts_ofFn s hs.2.1 hs.1
  obtain ⟨el, pts, ids, h⟩ := dpc_element_spec (Or.inl rfl) s hs hv s.verts (fun i : Fin 2 => s.v i) (by
    have hnd := hs.2.2.1
    unfold Nondegenerate at hnd
    revert hnd
    generalize s.v = v
    rw [hs.1]
    exact id) (by
    rw [hV]
    unfold dpcCorners
    simp [List.ofFn_succ]) topo ht cell hcell k hk
  refine ⟨el, pts, ids, ?_⟩
  simpa using h

/-- Specification: a point of the unit cube. -/
def InUnitCube {D : ℕ} (x : Fin D → ℝ) : Prop := ∀ i, 0 ≤ x i ∧ x i ≤ 1

private theorem equispaced_in {D : ℕ} (k : ℕ) (hk : 1 ≤ k) (w : Fin (D + 1) → Fin D → ℝ) (hw : ∀ i, InUnitCube (w i)) (x : Fin D → ℝ)
    (hx : EquispacedIn k w x) : InUnitCube x := by
  obtain ⟨β, h1, rfl⟩ := hx
  have hk0 : (0 : ℝ) < k := by exact_mod_cast hk
  intro j
  rw [Finset.sum_apply]
  constructor
  · exact Finset.sum_nonneg fun i _ => mul_nonneg (by positivity) (hw i j).1
  · calc ∑ i, (((β i : ℝ) / k) • w i) j ≤ ∑ i, (β i : ℝ) / k :=
          Finset.sum_le_sum fun i _ => by
            have := (hw i j).2
            rw [Pi.smul_apply, smul_eq_mul]
            exact mul_le_of_le_one_right (by positivity) this
      _ = 1 := by
          rw [← Finset.sum_div, ← Nat.cast_sum, h1, div_self hk0.ne']

private theorem quad_verts : ((flatCube 2).toSimplex 2).verts = [![0, 0], ![0, 1], ![1, 0], ![1, 1]] := by
  have e : flatCube 2 = (ufcQuadrilateral : CellData ℝ) := rfl
  have : (ufcQuadrilateral : CellData ℝ).verts = [[0, 0], [0, 1], [1, 0], [1, 1]] := rfl
  rw [e]
  unfold CellData.toSimplex
  simp only [this]
  simp only [List.map_cons, List.map_nil, List.cons.injEq, and_true]
  refine ⟨?_, ?_, ?_, ?_⟩ <;> funext i <;> fin_cases i <;> rfl

private theorem hex_verts : ((flatCube 3).toSimplex 3).verts =
    [![0, 0, 0], ![0, 0, 1], ![0, 1, 0], ![0, 1, 1], ![1, 0, 0], ![1, 0, 1], ![1, 1, 0], ![1, 1, 1]] := by
  have e : flatCube 3 = (ufcHexahedron : CellData ℝ) := rfl
  have : (ufcHexahedron : CellData ℝ).verts =
    [[0, 0, 0], [0, 0, 1], [0, 1, 0], [0, 1, 1], [1, 0, 0], [1, 0, 1], [1, 1, 0], [1, 1, 1]] := rfl
  rw [e]
  unfold CellData.toSimplex
  simp only [this]
  simp only [List.map_cons, List.map_nil, List.cons.injEq, and_true]
  refine ⟨?_, ?_, ?_, ?_, ?_, ?_, ?_, ?_⟩ <;> funext i <;> fin_cases i <;> rfl

private theorem quad_corners : dpcCorners ((flatCube 2).toSimplex 2).verts =
    some (List.ofFn ![![0, 0], ![1, 0], ![1 / 2, 1]]) := by
  rw [quad_verts]
  unfold dpcCorners
  have hr : (List.range' 1 (2 - 1)) = [1] := rfl
  simp only [hr, List.length_cons, List.length_nil, List.mapM_cons, List.mapM_nil, List.getElem?_cons_zero, List.getElem?_cons_succ,
    Option.bind_eq_bind, Option.bind_some, Option.map_some, Option.pure_def, everyOther]
  norm_num
  have h : (![0, 1] + averageOf [![0, 0], ![1, 0]] : Fin 2 → ℝ) = ![1 / 2, 1] := by
    funext i
    fin_cases i <;> simp [averageOf]
  simpa using h

private theorem hex_corners : dpcCorners ((flatCube 3).toSimplex 3).verts =
    some (List.ofFn ![![0, 0, 0], ![1, 0, 0], ![1 / 2, 3 / 2, 0], ![1 / 2, 1 / 2, 1]]) := by
  rw [hex_verts]
  unfold dpcCorners
  have hr : (List.range' 1 (3 - 1)) = [1, 2] := rfl
  simp only [hr, List.length_cons, List.length_nil, List.mapM_cons, List.mapM_nil, List.getElem?_cons_zero, List.getElem?_cons_succ,
    Option.bind_eq_bind, Option.bind_some, Option.map_some, Option.pure_def, everyOther]
  norm_num
  have h : (![0, 1, 0] + averageOf [![0, 0, 0], ![0, 1, 0], ![1, 0, 0], ![1, 1, 0]] : Fin 3 → ℝ) = ![1 / 2, 3 / 2, 0] := by
    funext i
    fin_cases i <;> simp [averageOf] <;> norm_num
  have h' : (![0, 0, 1] + averageOf [![0, 0, 0], ![0, 1, 0], ![1, 0, 0], ![1, 1, 0]] : Fin 3 → ℝ) = ![1 / 2, 1 / 2, 1] := by
    funext i
    fin_cases i <;> simp [averageOf] <;> norm_num
  exact ⟨by simpa using h, by simpa using h'⟩

private theorem quad_independent : AffineIndependent ℝ (![![0, 0], ![1, 0], ![1 / 2, 1]] : Fin 3 → Fin 2 → ℝ) := by
  rw [affineIndependent_iff_linearIndependent_vsub ℝ _ 0, Fintype.linearIndependent_iff]
  intro g hg
  have h0 := congrFun hg 0
  have h1 := congrFun hg 1
  have e : (Finset.univ : Finset {x : Fin 3 // x ≠ 0}) = {⟨1, by decide⟩, ⟨2, by decide⟩} := by decide
  rw [e, Finset.sum_pair (by decide)] at h0 h1
  simp at h0 h1
  rw [h1] at h0
  rintro ⟨i, hi⟩
  fin_cases i
  · exact absurd rfl hi
  · simpa using h0
  · exact h1

private theorem hex_independent :
    AffineIndependent ℝ (![![0, 0, 0], ![1, 0, 0], ![1 / 2, 3 / 2, 0], ![1 / 2, 1 / 2, 1]] : Fin 4 → Fin 3 → ℝ) := by
  rw [affineIndependent_iff_linearIndependent_vsub ℝ _ 0, Fintype.linearIndependent_iff]
  intro g hg
  have h0 := congrFun hg 0
  have h1 := congrFun hg 1
  have h2 := congrFun hg 2
  have e : (Finset.univ : Finset {x : Fin 4 // x ≠ 0}) = {⟨1, by decide⟩, ⟨2, by decide⟩, ⟨3, by decide⟩} := by decide
  rw [e, Finset.sum_insert (by decide), Finset.sum_pair (by decide)] at h0 h1 h2
  simp at h0 h1 h2
  rw [h2] at h0 h1
  simp at h1
  rw [h1] at h0
  rintro ⟨i, hi⟩
  fin_cases i
  · exact absurd rfl hi
  · simpa using h0
  · exact h1
  · exact h2

/-- C63: `DPC(quadrilateral, k)`, `k ≥ 1`: all the nodes are in the cell. -/
theorem dpc_quadrilateral (topo : Topology δ) (ht : topo.WF) (cell : δ) (hcell : IsCellDim topo cell) (k : ℕ) (hk : 1 ≤ k) :
    ∃ el pts ids, dpc 2 topo k = some (el, pts, ids) ∧ IsNodalScalar k (pts.map pointEvaluation) el ∧ pts.Nodup ∧
      (∀ x, x ∈ pts ↔ EquispacedIn k ![![0, 0], ![1, 0], ![1 / 2, 1]] x) ∧ (∀ x ∈ pts, InUnitCube x) ∧
      AllOnCell topo cell ids ((k + 2).choose 2) := by
  obtain ⟨el, pts, ids, h1, h2, h3, h4, h5⟩ := dpc_element_spec (Or.inr (Or.inl rfl)) ((ufcTriangle : CellData ℝ).toSimplex 2)
    proper_ufcTriangle (fun h => absurd h (by norm_num)) _ _ quad_independent quad_corners topo ht cell hcell k hk
  refine ⟨el, pts, ids, h1, h2, h3, h4, fun x hx => equispaced_in k hk _ ?_ x ((h4 x).1 hx), h5⟩
  intro i j
  fin_cases i <;> fin_cases j <;> simp <;> norm_num

/-- C63: `DPC(hexahedron, k)`, `k ≥ 1`, is a nodal element too, but its nodes are not all in the cell: for every degree the node
`(1/2, 3/2, 0)` is outside. -/
theorem dpc_hexahedron (topo : Topology δ) (ht : topo.WF) (cell : δ) (hcell : IsCellDim topo cell) (k : ℕ) (hk : 1 ≤ k) :
    ∃ el pts ids, dpc 3 topo k = some (el, pts, ids) ∧ IsNodalScalar k (pts.map pointEvaluation) el ∧ pts.Nodup ∧
      (∀ x, x ∈ pts ↔ EquispacedIn k ![![0, 0, 0], ![1, 0, 0], ![1 / 2, 3 / 2, 0], ![1 / 2, 1 / 2, 1]] x) ∧
      AllOnCell topo cell ids ((k + 3).choose 3) ∧ ∃ x ∈ pts, ¬ InUnitCube x := by
  obtain ⟨el, pts, ids, h1, h2, h3, h4, h5⟩ := dpc_element_spec (Or.inr (Or.inr rfl)) ((ufcTetrahedron : CellData ℝ).toSimplex 3)
    proper_ufcTetrahedron (fun h => absurd h (by norm_num)) _ _ hex_independent hex_corners topo ht cell hcell k hk
  refine ⟨el, pts, ids, h1, h2, h3, h4, h5, ![1 / 2, 3 / 2, 0], (h4 _).2 ⟨![0, 0, k, 0], ?_, ?_⟩, ?_⟩
  · simp [Fin.sum_univ_four]
  · have hk0 : (k : ℝ) ≠ 0 := by positivity
    rw [Fin.sum_univ_four]
    simp [div_self hk0]
  · intro h
    have := (h 1).2
    simp at this
    norm_num at this

/-- C63: the node of `DPC(cell, 0)` on an interval, a quadrilateral or a hexahedron is the evaluation at the centre of the cell. -/
theorem dpc_zero (D : ℕ) (hD : D = 1 ∨ D = 2 ∨ D = 3) (topo : Topology δ) (ht : topo.WF) (cell : δ) (hcell : IsCellDim topo cell) :
    ∃ el ids, dpc D topo 0 = some (el, [fun _ => 1 / 2], ids) ∧ IsNodalScalar 0 [pointEvaluation fun _ => 1 / 2] el ∧
      AllOnCell topo cell ids 1 := by
  rcases hD with rfl | rfl | rfl
  · obtain ⟨el, ids, h⟩ := dpc_zero_spec (Or.inl rfl) ((ufcInterval : CellData ℝ).toSimplex 1) proper_ufcInterval (by
      intro _; norm_num [SimplexCell.v, CellData.toSimplex, ufcInterval]) ((flatCube 1).toSimplex 1).verts topo ht cell hcell
    have e : averageOf ((flatCube 1).toSimplex 1).verts = fun _ => 1 / 2 := by
      funext i
      fin_cases i
      simp [averageOf, flatCube, CellData.toSimplex, ufcInterval]
    rw [e] at h
    exact ⟨el, ids, h⟩
  · obtain ⟨el, ids, h⟩ := dpc_zero_spec (Or.inr (Or.inl rfl)) ((ufcTriangle : CellData ℝ).toSimplex 2) proper_ufcTriangle
      (fun h => absurd h (by norm_num)) ((flatCube 2).toSimplex 2).verts topo ht cell hcell
    have e : averageOf ((flatCube 2).toSimplex 2).verts = fun _ => 1 / 2 := by
      rw [quad_verts]
      funext i
      fin_cases i <;> simp [averageOf] <;> norm_num
    rw [e] at h
    exact ⟨el, ids, h⟩
  · obtain ⟨el, ids, h⟩ := dpc_zero_spec (Or.inr (Or.inr rfl)) ((ufcTetrahedron : CellData ℝ).toSimplex 3) proper_ufcTetrahedron
      (fun h => absurd h (by norm_num)) ((flatCube 3).toSimplex 3).verts topo ht cell hcell
    have e : averageOf ((flatCube 3).toSimplex 3).verts = fun _ => 1 / 2 := by
      rw [hex_verts]
      funext i
      fin_cases i <;> simp [averageOf] <;> norm_num
    rw [e] at h
    exact ⟨el, ids, h⟩

/-- C63: `DPC(interval, k)`, `k ≥ 1`. -/
theorem dpc_interval (topo : Topology δ) (ht : topo.WF) (cell : δ) (hcell : IsCellDim topo cell) (k : ℕ) (hk : 1 ≤ k) :
    ∃ el pts ids, dpc 1 topo k = some (el, pts, ids) ∧ IsNodalScalar k (pts.map pointEvaluation) el ∧ pts.Nodup ∧
      (∀ x, x ∈ pts ↔ ∃ i ≤ k, x = fun _ => (i : ℝ) / k) ∧ AllOnCell topo cell ids (k + 1) := by
  obtain ⟨el, pts, ids, h1, h2, h3, h4, h5⟩ := dpc_line ((ufcInterval : CellData ℝ).toSimplex 1) proper_ufcInterval (by
    intro _; norm_num [SimplexCell.v, CellData.toSimplex, ufcInterval]) topo ht cell hcell k hk
  refine ⟨el, pts, ids, h1, h2, h3, fun x => (h4 x).trans ?_, h5⟩
  have e0 : ((ufcInterval : CellData ℝ).toSimplex 1).v 0 = fun _ => 0 := by
    funext i; fin_cases i; rfl
  have e1 : ((ufcInterval : CellData ℝ).toSimplex 1).v 1 = fun _ => 1 := by
    funext i; fin_cases i; rfl
  constructor
  · rintro ⟨β, hβ, rfl⟩
    rw [Fin.sum_univ_two] at hβ
    refine ⟨β 1, by omega, ?_⟩
    rw [Fin.sum_univ_two]
    simp only [Fin.val_zero, Fin.val_one, e0, e1]
    funext i
    simp
  · rintro ⟨i, hi, rfl⟩
    refine ⟨![k - i, i], by simp [Fin.sum_univ_two]; omega, ?_⟩
    rw [Fin.sum_univ_two]
    simp only [Fin.val_zero, Fin.val_one, e0, e1]
    funext j
    simp

/-! The topologies of the shipped cells and of their tensor-product forms meet the hypotheses. -/
private def okB (t : Topology Key) (c : Key) : Bool :=
  decide ((Dict.keys t).Nodup) && t.all (fun p => decide ((Dict.keys p.2).Nodup)) &&
  decide (((Dict.get? t c).bind fun es => Dict.get? es 0).isSome) &&
  t.all (fun p => p.2.all fun q => decide (p.1 = c → q.1 = 0)) && t.all fun p => decide (p.1 ≤ c)

private theorem ok_of_okB (t : Topology Key) (c : Key) (h : okB t c = true) : t.WF ∧ IsCellDim t c := by
  simp only [okB, Bool.and_eq_true, decide_eq_true_eq, List.all_eq_true] at h
  obtain ⟨⟨⟨⟨a1, a2⟩, h1⟩, h2⟩, h3⟩ := h
  refine ⟨⟨a1, a2⟩, ?_, ?_, ?_⟩
  · rw [Option.isSome_iff_exists] at h1
    obtain ⟨v, hv⟩ := h1
    rw [Option.bind_eq_some_iff] at hv
    obtain ⟨es, a, b⟩ := hv
    exact ⟨v, es, a, b⟩
  · intro e v hv
    obtain ⟨es, m1, m2⟩ := hv.mem
    exact h2 _ m1 _ m2 rfl
  · intro x hx
    obtain ⟨p, hp, rfl⟩ := List.mem_map.1 hx
    exact h3 p hp

private theorem hex_ok : (ufcHexahedron : CellData ℝ).topo.WF ∧ IsCellDim (ufcHexahedron : CellData ℝ).topo (.int 3) :=
  ok_of_okB _ _ (by
    show okB (ufcHexahedron : CellData ℤ).topo (.int 3) = true
    decide +kernel)

private theorem quad_ok : (ufcQuadrilateral : CellData ℝ).topo.WF ∧ IsCellDim (ufcQuadrilateral : CellData ℝ).topo (.int 2) :=
  ok_of_okB _ _ (by
    show okB (ufcQuadrilateral : CellData ℤ).topo (.int 2) = true
    decide +kernel)

private theorem tensor_ok : (tensorProductCell [(ufcInterval : CellData ℝ), ufcInterval]).topo.WF ∧
    IsCellDim (tensorProductCell [(ufcInterval : CellData ℝ), ufcInterval]).topo (.tup [.int 1, .int 1]) :=
  ok_of_okB _ _ (by
    show okB (tensorProductCell [(ufcInterval : CellData ℤ), ufcInterval]).topo (.tup [.int 1, .int 1]) = true
    decide +kernel)

/-- The cubic element on the UFC quadrilateral. -/
example : ∃ el pts ids, dpc 2 (ufcQuadrilateral : CellData ℝ).topo 3 = some (el, pts, ids) ∧ (∀ x ∈ pts, InUnitCube x) ∧
    EntityIds.at? ids (.int 2) 0 = some (List.range 10) := by
  obtain ⟨el, pts, ids, h1, -, -, -, h2, h3⟩ := dpc_quadrilateral _ quad_ok.1 _ quad_ok.2 3 (by norm_num)
  exact ⟨el, pts, ids, h1, h2, h3.2.1⟩

/-- The quadratic element on the product of two intervals; the cell is entity 0 of dimension `(1, 1)`. -/
example : ∃ el pts ids, dpc 2 (tensorProductCell [(ufcInterval : CellData ℝ), ufcInterval]).topo 2 = some (el, pts, ids) ∧
    EntityIds.at? ids (.tup [.int 1, .int 1]) 0 = some (List.range 6) := by
  obtain ⟨el, pts, ids, h1, -, -, -, -, h3⟩ := dpc_quadrilateral _ tensor_ok.1 _ tensor_ok.2 2 (by norm_num)
  exact ⟨el, pts, ids, h1, h3.2.1⟩

/-- The linear element on the UFC hexahedron: a node outside the cell. -/
example : ∃ el pts ids, dpc 3 (ufcHexahedron : CellData ℝ).topo 1 = some (el, pts, ids) ∧ ∃ x ∈ pts, ¬ InUnitCube x := by
  obtain ⟨el, pts, ids, h1, -, -, -, -, h3⟩ := dpc_hexahedron _ hex_ok.1 _ hex_ok.2 1 le_rfl
  exact ⟨el, pts, ids, h1, h3⟩

/-- The constant element on the UFC hexahedron. -/
example : ∃ el ids, dpc 3 (ufcHexahedron : CellData ℝ).topo 0 = some (el, [fun _ => 1 / 2], ids) := by
  obtain ⟨el, ids, h, -⟩ := dpc_zero 3 (by norm_num) _ hex_ok.1 _ hex_ok.2
  exact ⟨el, ids, h⟩

/-- The element of degree 2 on the default line. -/
example : ∃ el pts ids, dpcElement ((defaultLine : CellData ℝ).toSimplex 1) ((defaultLine : CellData ℝ).toSimplex 1).verts
    ((defaultLine : CellData ℝ).toSimplex 1).topo 2 = some (el, pts, ids) ∧ pts.Nodup := by
  obtain ⟨el, pts, ids, h, -, h2, -⟩ := dpc_line ((defaultLine : CellData ℝ).toSimplex 1) proper_defaultLine (by
    intro _; norm_num [SimplexCell.v, CellData.toSimplex, defaultLine]) ((defaultLine : CellData ℝ).toSimplex 1).topo
    (proper_defaultLine (K := ℝ)).2.1.wf 1 (proper_defaultLine (K := ℝ)).2.2.2 2
    (by norm_num)
  exact ⟨el, pts, ids, h, h2⟩

end cells
end FIAT
