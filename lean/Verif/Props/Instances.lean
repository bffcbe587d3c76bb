/-
The theorems applied to concrete cases: the hypotheses of each are met. Examples of the later properties stand beside their theorems.
-/
import Verif.Props.Geometry
import Verif.Props.PolyDim
import Verif.Props.TensorElement
import Verif.Props.Affine
import Verif.Props.Jacobi
import Verif.Props.EndToEnd
import Verif.Props.Combine
import Verif.Props.Restricted
import Verif.Props.Barycentric
import Verif.Props.CellEq
import Verif.Props.QuadTables
import Verif.Props.Orthopoly
import Verif.Props.Bernstein
import Verif.Props.CreateQuadrature
import Verif.Props.QuadPoints
import Verif.Props.Support

namespace FIAT

/-! ### C01, C02 -/

example (t : List ℕ) : t ∈ mis 4 7 ↔ t.length = 4 ∧ t.sum = 7 := mis_mem 4 7 (by norm_num) t

example (n : ℕ) : (mis 3 n).length = (n + 2).choose 2 := mis_length 3 n (by norm_num)

example (t : List ℕ) : t ∈ latticeIter 1 5 3 ↔ t.length = 3 ∧ (∀ x ∈ t, 1 ≤ x) ∧ t.sum < 5 := latticeIter_mem 1 5 3 (by norm_num) t

/-! ### C03 -/

theorem unit_triangle_independent : AffineIndependent ℚ (fun i : Fin [(0, 0), (1, 0), (0, 1)].length =>
    ([(0, 0), (1, 0), (0, 1)] : List (ℚ × ℚ)).get i) := by
  rw [affineIndependent_iff_of_fintype]
  intro w h1 h2
  rw [Finset.univ.weightedVSub_eq_linear_combination h1] at h2
  change Fin 3 → ℚ at w
  change ∑ i : Fin 3, w i = 0 at h1
  change ∑ i : Fin 3, w i • ([(0, 0), (1, 0), (0, 1)] : List (ℚ × ℚ)).get i = 0 at h2
  rw [Fin.sum_univ_three] at h1 h2
  simp only [List.get_eq_getElem, Prod.ext_iff, Prod.fst_add, Prod.snd_add] at h2
  have h3 : w 1 = 0 := by simpa using h2.1
  have h4 : w 2 = 0 := by simpa using h2.2
  intro i
  change Fin 3 at i
  fin_cases i
  · show w 0 = 0
    rw [h3, h4] at h1
    simpa using h1
  · exact h3
  · exact h4

example (n k : ℕ) (hn : 1 ≤ n) : (makeLattice ℚ ((0, 0) : ℚ × ℚ) [(1, 0), (0, 1)] n k).Nodup :=
  make_lattice_nodup _ _ n k hn unit_triangle_independent

example (n k : ℕ) (hn : 1 ≤ n) (p : ℚ × ℚ) (hp : p ∈ makeLattice ℚ ((0, 0) : ℚ × ℚ) [(1, 0), (0, 1)] n k) :
    ∃ b : List ℚ, IsBary b [(0, 0), (1, 0), (0, 1)] p ∧ ∀ x ∈ b, (k : ℚ) / n ≤ x :=
  make_lattice_bary _ _ n k hn p (by simp) hp

/-! ### C04 -/

example (k : ℕ) : getNumMembers 3 k = some (dimP 3 k) ∧ polynomialDimension 3 (k : ℤ) = some (dimP 3 k : ℤ) :=
  ⟨num_members_eq_dimP 3 k (by norm_num) (by norm_num), polynomial_dimension_eq_dimP 3 k (by norm_num) (by norm_num)⟩

/-! ### C05 - C08 -/

theorem interval_wf : (ufcInterval : CellData ℚ).topo.WF := by unfold Topology.WF Dict.WF ufcInterval; decide

example (v : List ℕ) (d : Key) (e : ℕ) : toLex (d, e) ∈ subEntitiesOf (ufcInterval : CellData ℚ).topo v ↔
    ∃ v', HasEntity (ufcInterval : CellData ℚ).topo d e v' ∧ ∀ x ∈ v', x ∈ v := subEntitiesOf_mem interval_wf v d e

theorem exQ2_ok : Topology.WF exQ2 ∧ SameEntities (ufcInterval : CellData ℚ).topo exQ2 ∧ DofsPartition exQ2 3 ∧ InOrder exQ2 := by
  have w2 : Topology.WF exQ2 := by unfold Topology.WF Dict.WF exQ2; decide
  refine ⟨w2, sameEntities_of_keys _ _ rfl, dofsPartition_of_perm _ _ w2 (by decide), ?_⟩
  intro d es h; simp [exQ2] at h; rcases h with ⟨rfl, rfl⟩ | ⟨rfl, rfl⟩ <;> rfl

theorem exQ1_ok : Topology.WF exQ1 ∧ SameEntities (ufcInterval : CellData ℚ).topo exQ1 ∧ DofsPartition exQ1 2 ∧ InOrder exQ1 := by
  have w1 : Topology.WF exQ1 := by unfold Topology.WF Dict.WF exQ1; decide
  refine ⟨w1, sameEntities_of_keys _ _ rfl, dofsPartition_of_perm _ _ w1 (by decide), ?_⟩
  intro d es h; simp [exQ1] at h; rcases h with ⟨rfl, rfl⟩ | ⟨rfl, rfl⟩ <;> rfl

/-- The dofs of the closure of an entity of a quadrilateral, for the dofs of the biquadratic element. -/
example : ∃ cl, entityClosureIds (tensorProductCell [ufcInterval, ufcInterval] : CellData ℚ).topo (tensorEntityIds 3 exQ2 exQ2) = some cl ∧
    ∀ d e v, HasEntity (tensorProductCell [ufcInterval, ufcInterval] : CellData ℚ).topo d e v → ∃ l, cl.at? d e = some l ∧
      l.Pairwise (· ≤ ·) ∧ ∀ n, n ∈ l ↔ InClosure (tensorProductCell [ufcInterval, ufcInterval] : CellData ℚ).topo
        (tensorEntityIds 3 exQ2 exQ2) v n :=
  entity_closure_good (tensor_good _ (by simp [good_interval])) (fun d e v h => Option.isSome_iff_exists.1
    ((tensor_same_entities _ _ good_interval good_interval 3 _ _ exQ2_ok.1 exQ2_ok.1 exQ2_ok.2.2.2 exQ2_ok.2.2.2 exQ2_ok.2.1 exQ2_ok.2.1 d e).2 ⟨v, h⟩))

example : HasEntity (tensorProductCell [(ufcInterval : CellData ℚ), ufcTriangle]).topo (.tup [.int 0, .int 1]) 5
    (productVerts [(ufcInterval : CellData ℚ), ufcTriangle] [⟨.int 0, 1, [1]⟩, ⟨.int 1, 2, [0, 1]⟩]) :=
  tensor_entity [(ufcInterval : CellData ℚ), ufcTriangle] (by simp [good_interval, good_triangle]) [⟨.int 0, 1, [1]⟩, ⟨.int 1, 2, [0, 1]⟩]
    (.cons ⟨_, rfl, rfl⟩ (.cons ⟨_, rfl, rfl⟩ .nil))

/-! ### C11, C12 -/

example : (∀ t ∈ computeTangents (![1, 0] : Fin 2 → ℝ) [![0, 1]], orth (triangleNormal ![1, 0] ![0, 1]) t) ∧
    norm2 (triangleNormal (![1, 0] : Fin 2 → ℝ) ![0, 1]) = 1 :=
  triangle_normal _ _ fun h => by have := congrFun h 0; simp at this

example (a b c : ℚ) : containsPoint (.prod [.simplex 2, .simplex 1]) [a, b, c] 0 = some true ↔
    InCell (.prod [.simplex 2, .simplex 1]) [a, b, c] := contains_point_iff _ _ rfl

/-! ### C13, C14, C45 -/

example (n : ℕ) (x : ℝ) : evalJacobi (1 : ℝ) 2 n x = Polynomial.aeval x (jacobiPoly (1 : ℝ) 2 n) :=
  eval_jacobi_eq 1 2 n (jacobiOK_of_gt _ _ (by norm_num) (by norm_num) n) x

example (n : ℕ) (xs : List ℝ) (k j : ℕ) (hk : k ≤ n) (hj : j < xs.length) : evalJacobiBatch (1 : ℝ) 2 n xs k j = evalJacobi (1 : ℝ) 2 k xs[j] :=
  eval_jacobi_batch_eq 1 2 n (jacobiOK_of_gt _ _ (by norm_num) (by norm_num) n) xs k j hk hj

example (n : ℕ) (x : ℝ) : evalJacobiDeriv (0 : ℝ) 0 n x = Polynomial.aeval x (Polynomial.derivative (jacobiPoly (0 : ℝ) 0 n)) :=
  eval_jacobi_deriv_eq 0 0 n (jacobiOK_of_gt _ _ (by norm_num) (by norm_num) _) x

example (n : ℕ) (xs : List ℝ) (k j : ℕ) (hk : k ≤ n) (hj : j < xs.length) :
    evalJacobiDerivBatch (0 : ℝ) 0 n xs k j = evalJacobiDeriv (0 : ℝ) 0 k xs[j] :=
  eval_jacobi_deriv_batch_eq 0 0 n (jacobiOK_of_gt _ _ (by norm_num) (by norm_num) _) xs k j hk hj

example (N : ℕ) (x : ℝ) (k : ℕ) (hk : k ≤ N) : orthoJacobi N (0 : ℝ) 0 x k = evalJacobi (0 : ℝ) 0 k x :=
  ortho_jacobi_eq N 0 0 (jacobiOK_of_gt _ _ (by norm_num) (by norm_num) N) x k hk

example (N : ℕ) (x : ℝ) (k : ℕ) (hk : k ≤ N) : orthoJacobiD N (0 : ℝ) 0 x k = evalJacobiDeriv (0 : ℝ) 0 k x :=
  ortho_jacobiD_eq N 0 0 (jacobiOK_of_gt _ _ (by norm_num) (by norm_num) _) x k hk

/-! ### C15, C17 -/

example : ∃ φ : ℕ → MvPolynomial (Fin 3) ℝ, (∀ n, ((3 : ℕ) = 1 ∨ n ≠ 0) → ExpTabulates 3 n (ufcVerts ℝ 3) φ) ∧ (∀ n, HierarchicalBasis 3 n φ) ∧
    ∀ i j, ∫ x in convexHull ℝ (Set.range (ufcVerts ℝ 3)), MvPolynomial.eval x (φ i) * MvPolynomial.eval x (φ j) =
      if i = j then |(edgeMatrix (ufcVerts ℝ 3)).det| / 2 ^ 3 else 0 :=
  expansion_table_spec 3 (by norm_num) _ (ufcVerts_affineIndependent (K := ℝ) 3)

/-! ### C21, C22 -/

/-! ### C24, C25, C26 -/

example : ∃ ids, concatenateEntityDofs (ufcInterval : CellData ℚ).topo [(3, exQ2), (2, exQ1)] = some ids ∧
    Concatenates (ufcInterval : CellData ℚ).topo [(3, exQ2), (2, exQ1)] ids :=
  concatenate_entity_dofs_spec _ interval_wf _ (by
    intro x hx
    simp only [List.mem_cons, List.not_mem_nil, or_false] at hx
    rcases hx with rfl | rfl
    · exact ⟨exQ2_ok.1, exQ2_ok.2.1, exQ2_ok.2.2.1⟩
    · exact ⟨exQ1_ok.1, exQ1_ok.2.1, exQ1_ok.2.2.1⟩)

example : Concatenates (ufcInterval : CellData ℚ).topo [(3, exQ2), (2, exQ1)] (mergeEntityIds [(3, exQ2), (2, exQ1)]) :=
  merge_entity_ids_spec _ _ (by simp) (by
    intro x hx
    simp only [List.mem_cons, List.not_mem_nil, or_false] at hx
    rcases hx with rfl | rfl
    · exact ⟨exQ2_ok.1, exQ2_ok.2.1, exQ2_ok.2.2.1⟩
    · exact ⟨exQ1_ok.1, exQ1_ok.2.1, exQ1_ok.2.2.1⟩)

example : DofsPartition (tensorEntityIds 2 exQ2 exQ1) (3 * 2) :=
  tensor_dofs_partition 3 2 _ _ exQ2_ok.1 exQ1_ok.1 exQ2_ok.2.2.2 exQ1_ok.2.2.2 exQ2_ok.2.2.1 exQ1_ok.2.2.1

example : ∃ e l, (tensorEntityIds 2 exQ2 exQ1).at? (.tup [.int 1, .int 0]) e = some l ∧
    HasEntity (tensorProductCell [(ufcInterval : CellData ℚ), ufcInterval]).topo (.tup [.int 1, .int 0]) e
      (productVerts [(ufcInterval : CellData ℚ), ufcInterval] [⟨.int 1, 0, [0, 1]⟩, ⟨.int 0, 1, [1]⟩]) ∧
    ∀ i, i ∈ l ↔ ∃ x ∈ [2], ∃ y ∈ [1], i = x * 2 + y :=
  tensor_dof_entity _ _ good_interval good_interval 2 _ _ exQ2_ok.1 exQ1_ok.1 exQ2_ok.2.2.2 exQ1_ok.2.2.2 exQ2_ok.2.1 exQ1_ok.2.1
    rfl rfl ⟨_, rfl, rfl⟩ ⟨_, rfl, rfl⟩

example (a b : ℕ → ℕ → ℕ → ℚ) : ∃ arr, Dict.get? (mixedTabulate ([⟨3, 1, [([0], a)]⟩] ++ ⟨2, 2, [([0], b)]⟩ :: [])) [0] = some arr ∧
    ∀ j < 2, ∀ p, (∀ c < 2, arr (3 + j) (1 + c) p = b j c p) ∧ ∀ c, c < 1 ∨ 1 + 2 ≤ c → arr (3 + j) c p = 0 :=
  mixed_tabulate_block [⟨3, 1, [([0], a)]⟩] [] ⟨2, 2, [([0], b)]⟩ (by
    intro y hy
    simp only [List.cons_append, List.nil_append, List.mem_cons, List.not_mem_nil, or_false] at hy
    rcases hy with rfl | rfl <;> simp [Dict.WF, Dict.keys]) [0] b rfl

/-! ### C32, C33 -/

example (order : ℕ) : ∃ res, barycentricInterpolation (![0, 1, 3] : Fin 3 → ℝ) ![1 / 2, 2] order = some res ∧
    (∀ α, α ∈ Dict.keys res ↔ ∃ k ≤ order, α = [k]) ∧
    ∀ k T, Dict.get? res [k] = some T → ∀ i p, T i p = (Polynomial.derivative^[k] (lagrangeBasis ![0, 1, 3] i)).eval ((![1 / 2, 2] : Fin 2 → ℝ) p) :=
  barycentric_spec _ (by
      intro i j h
      fin_cases i <;> fin_cases j <;> simp at h ⊢) (by norm_num) _ (by
      intro p
      right
      intro k
      fin_cases p <;> fin_cases k <;> norm_num [abs_of_pos, abs_of_neg]) order

/-! ### C42, C44, C45, C78 -/

example (b : CellObj ℝ) : CellObj.pyEq (CellObj.new .ufcTriangle) b = true ↔ b.cls = .ufcTriangle := cell_eq_atom _ (by decide) b

example : ∃ R, kmvLumpScheme 3 (ufcData 3) 3 = some R ∧ WithinOn R 3 (kmvPrecision 3 3) (2e-15) ∧
    ((3 : ℕ) = 1 ∨ ((3 : ℕ) = 2 ∧ (3 : ℕ) = 2) → WithinOn R 3 (kmvPrecision 3 3) 0) ∧ 3 ≤ kmvPrecision 3 3 := kmv_within 3 3 (by norm_num)

example (data : CellData ℝ) : kmvLumpScheme 3 data 4 = none := kmv_rejects 3 data 4 (by norm_num)

example (n : ℕ) : 0 < (jacobiPoly (1 / 2 : ℝ) 3 n).coeff n := jacobiPoly_lead_pos _ _ (by norm_num) (by norm_num) n

example (fresh : ℕ → Option ℕ) (hist : List ℕ) : supportRun fresh [] hist = hist.map fresh := support_cache_transparent fresh hist

end FIAT
