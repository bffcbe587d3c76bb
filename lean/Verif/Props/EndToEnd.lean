/-
C17, C18 and C20 without assumptions on the expansion set: the orthonormal polynomial set and the Lagrange element built from
the modelled expansion sets.
-/
import Verif.Model.ONSet
import Verif.Props.Expansions
import Verif.Props.Ciarlet
import Verif.Props.Discontinuous

namespace FIAT
open MvPolynomial

/-- C17: the derivatives tabulated by the expansion sets of the triangle and the tetrahedron (symbolic differentiation of
the table) are the gradients of the members. -/
theorem symbolic_derivatives_spec {d n : ℕ} {v : Fin (d + 1) → Fin d → ℝ} {φ : ℕ → MvPolynomial (Fin d) ℝ}
    (h : ExpTabulates d n v φ) (pt : Fin d → ℝ) :
    symbolicDerivatives (List.ofFn v) n pt = some ((List.range ((n + d).choose d)).map fun i =>
      (eval pt (φ i), fun j => eval pt (pderiv j (φ i)))) := by
  unfold symbolicDerivatives
  rw [h (MvPolynomial (Fin d) ℝ) X, Option.bind_eq_bind, Option.bind_some]
  generalize (n + d).choose d = N
  have : ∀ L : List ℕ, (L.map fun i => some ((aeval X : MvPolynomial (Fin d) ℝ →ₐ[ℝ] _) (φ i))).mapM
      (fun e => e.map fun phi => (eval pt phi, fun j => eval pt (pderiv j phi))) =
      some (L.map fun i => (eval pt (φ i), fun j => eval pt (pderiv j (φ i)))) := by
    intro L
    induction L with
    | nil => rfl
    | cons a L ih =>
      rw [List.map_cons, List.mapM_cons, ih]
      simp [aeval_X_left_apply]
  exact this _

private theorem line_map {v : Fin 2 → Fin 1 → ℝ} {M : Matrix (Fin 1) (Fin 1) ℝ} {b : Fin 1 → ℝ}
    (h : ∀ i, M.mulVec (v i) + b = dvert 1 i) : M 0 0 * (v 1 0 - v 0 0) = 2 := by
  have h0 := congrFun (h 0) 0
  have h1 := congrFun (h 1) 0
  simp [Matrix.mulVec, dotProduct, dvert] at h0 h1
  linarith

private theorem line_pull (M : Matrix (Fin 1) (Fin 1) ℝ) (b : Fin 1 → ℝ) (k : ℕ) :
    lineBasis.pull M b k = Polynomial.aeval (refPt M b X 0) (jacobiPoly (0 : ℝ) 0 k) * C (Real.sqrt (k + 1 / 2)) := by
  have h := lineBasis.pull_aeval M b (X : Fin 1 → MvPolynomial (Fin 1) ℝ) k
  rw [show lineBasis.ix k = k from rfl, aeval_X_left_apply] at h
  rw [h, show lineBasis.ψ k = lineRaw k * C (Real.sqrt (k + 1 / 2)) from rfl, map_mul, aeval_C, lineRaw, hJac_map,
    aeval_X, map_one, hJac_one 0 le_rfl]
  rfl

private theorem line_pderiv (M : Matrix (Fin 1) (Fin 1) ℝ) (b : Fin 1 → ℝ) (k : ℕ) (x : Fin 1 → ℝ) :
    eval x (pderiv 0 (lineBasis.pull M b k)) =
      (Polynomial.derivative (jacobiPoly (0 : ℝ) 0 k)).eval (refPt M b x 0) * M 0 0 * Real.sqrt (k + 1 / 2) := by
  rw [line_pull, Derivation.leibniz, Derivation.map_aeval]
  have e1 : pderiv 0 (refPt M b X 0 : MvPolynomial (Fin 1) ℝ) = C (M 0 0) := by
    simp [refPt, algebraMap_eq]
  have e2 : eval x (Polynomial.aeval (refPt M b X 0) (Polynomial.derivative (jacobiPoly (0 : ℝ) 0 k))) =
      (Polynomial.derivative (jacobiPoly (0 : ℝ) 0 k)).eval (refPt M b x 0) := by
    rw [← coe_aeval_eq_eval, RingHom.coe_coe, ← Polynomial.aeval_algHom_apply, aeval_refPt, Polynomial.coe_aeval_eq_eval]
  simp only [e1, pderiv_C, smul_eq_mul, mul_zero, zero_add, map_mul, eval_C, e2]
  ring

private theorem line_dv (M : Matrix (Fin 1) (Fin 1) ℝ) (b : Fin 1 → ℝ) (vol : ℝ) (n k : ℕ) (hk : k ≤ n) (x : Fin 1 → ℝ) :
    (lineDerivatives M b vol n x)[k]? =
      some ((Polynomial.derivative (jacobiPoly (0 : ℝ) 0 k)).eval (refPt M b x 0) * (2 / vol) * Real.sqrt (k + 1 / 2)) := by
  unfold lineDerivatives
  simp only
  rw [List.getElem?_map, List.getElem?_range (by omega), Option.map_some]
  rw [eval_jacobi_deriv_batch_eq 0 0 n (jacobiOK_of_gt _ _ (by norm_num) (by norm_num) _) _ k 0 hk (by simp),
    eval_jacobi_deriv_eq 0 0 k (jacobiOK_of_gt _ _ (by norm_num) (by norm_num) _), Polynomial.coe_aeval_eq_eval]
  simp

private theorem table_unique {d n : ℕ} {v : Fin (d + 1) → Fin d → ℝ} {φ ψ : ℕ → MvPolynomial (Fin d) ℝ}
    (h1 : ExpTabulates d n v φ) (h2 : ExpTabulates d n v ψ) (i : ℕ) (hi : i < (n + d).choose d) : φ i = ψ i := by
  have e := (h1 (MvPolynomial (Fin d) ℝ) X).symm.trans (h2 _ X)
  rw [Option.some.injEq] at e
  have := congrArg (fun l => l[i]?) e
  simpa [List.getElem?_range hi, aeval_X_left_apply] using this

private theorem line_tab (v : Fin 2 → Fin 1 → ℝ) (hv : AffineIndependent ℝ v) : ∃ M b,
    makeAffineMapping (List.ofFn v) (defaultVerts 1) = some (M, b) ∧ (M 0 0 * (v 1 0 - v 0 0) = 2) ∧
      ∀ n, ExpTabulates 1 n v (lineBasis.pull M b) := by
  obtain ⟨M, b, h1, h2, -⟩ := make_affine_mapping_spec v (dvert 1) hv
  rw [← defaultVerts_eq] at h1
  refine ⟨M, b, h1, line_map h2, fun n A _ _ pts => ?_⟩
  have e : expansionTable 1 (List.ofFn v) n pts = some (lineTabulate M b n pts) := by
    have : expansionTable 1 (List.ofFn v) n pts = (makeAffineMapping (List.ofFn v) (defaultVerts 1)).bind
      fun Mb => some (lineTabulate Mb.1 Mb.2 n pts) := rfl
    rw [this, h1, Option.bind_some]
  rw [e, line_row]

private theorem line_expDv (verts : List (Fin 1 → ℝ)) (n : ℕ) (pts : List (Fin 1 → ℝ)) (k j : ℕ) (i : Fin 1) :
    expDv 1 verts n pts k j i = ((makeAffineMapping verts (defaultVerts 1)).bind fun Mb => (verts[0]?).bind fun v0 =>
      (verts[1]?).bind fun v1 => (pts[j]?).bind fun x =>
        (lineDerivatives Mb.1 Mb.2 (lineVolume (v0 0) (v1 0)) n x)[k]?).getD 0 := rfl

private theorem line_independent (v : Fin 2 → Fin 1 → ℝ) (h : v 0 0 ≠ v 1 0) : AffineIndependent ℝ v := by
  have e : v = ![v 0, v 1] := by funext i; fin_cases i <;> rfl
  rw [e]
  exact affineIndependent_of_ne ℝ fun hh => h (congrFun hh 0)

/-- C17: on an interval with increasing vertices (longer than 1e-10) the tabulated derivatives of the line expansion set are
the derivatives of its members. -/
theorem line_derivatives_spec (v : Fin 2 → Fin 1 → ℝ) (hv : 1e-10 < v 1 0 - v 0 0) {n : ℕ}
    {φ : ℕ → MvPolynomial (Fin 1) ℝ} (h : ExpTabulates 1 n v φ) (pts : List (Fin 1 → ℝ)) (k j : ℕ) (hk : k ≤ n)
    (x : Fin 1 → ℝ) (hx : pts[j]? = some x) :
    expDv 1 (List.ofFn v) n pts k j 0 = eval x (pderiv 0 (φ k)) := by
  have hv' := line_independent v fun hh => by norm_num [hh] at hv
  obtain ⟨M, b, h1, h2, h3⟩ := line_tab v hv'
  rw [table_unique h (h3 n) k (by simpa using Nat.lt_succ_of_le hk)]
  have e : M 0 0 = 2 / lineVolume (v 0 0) (v 1 0) := by
    have : (0 : ℝ) < v 1 0 - v 0 0 := lt_trans (by norm_num) hv
    rw [lineVolume, abs_of_pos this, if_pos hv, eq_div_iff this.ne', h2]
  rw [line_pderiv, e]
  rw [line_expDv, h1, hx]
  simp [line_dv M b _ n k hk x]

/-- On an interval with decreasing vertices every tabulated derivative has the wrong sign. -/
theorem line_derivatives_reversed (v : Fin 2 → Fin 1 → ℝ) (hv : 1e-10 < v 0 0 - v 1 0) {n : ℕ}
    {φ : ℕ → MvPolynomial (Fin 1) ℝ} (h : ExpTabulates 1 n v φ) (pts : List (Fin 1 → ℝ)) (k j : ℕ) (hk : k ≤ n)
    (x : Fin 1 → ℝ) (hx : pts[j]? = some x) :
    expDv 1 (List.ofFn v) n pts k j 0 = - eval x (pderiv 0 (φ k)) := by
  have hv' := line_independent v fun hh => by norm_num [hh] at hv
  obtain ⟨M, b, h1, h2, h3⟩ := line_tab v hv'
  rw [table_unique h (h3 n) k (by simpa using Nat.lt_succ_of_le hk)]
  have e : M 0 0 = - (2 / lineVolume (v 0 0) (v 1 0)) := by
    have : (0 : ℝ) < v 0 0 - v 1 0 := lt_trans (by norm_num) hv
    rw [lineVolume, abs_sub_comm, abs_of_pos this, if_pos hv, ← neg_div, eq_div_iff this.ne']
    linarith
  rw [line_pderiv, e]
  rw [line_expDv, h1, hx]
  simp [line_dv M b _ n k hk x]

/-- The table as `PolynomialSet` reads it. -/
theorem exp_base_spec {D n : ℕ} {v : Fin (D + 1) → Fin D → ℝ} {φ : ℕ → MvPolynomial (Fin D) ℝ} (h : ExpTabulates D n v φ) :
    BaseSpec (fun i : Fin ((n + D).choose D) => φ i) (expTab (List.ofFn v) n) := by
  intro pts i j x hx
  unfold expTab
  rw [hx, Option.bind_some, h ℝ x, Option.bind_some]
  simp [Slots.rd, List.getElem?_range i.2, coe_aeval_eq_eval]

/-- The interval is not reversed (and longer than 1e-10); no condition on triangles and tetrahedra. -/
def Increasing {D : ℕ} (v : Fin (D + 1) → Fin D → ℝ) : Prop :=
  ∀ h : D = 1, 1e-10 < v ⟨1, by omega⟩ ⟨0, by omega⟩ - v 0 ⟨0, by omega⟩

/-- C17: the tabulated first derivatives are the derivatives of the members. -/
theorem exp_dv_spec {D n : ℕ} (hD : D = 1 ∨ D = 2 ∨ D = 3) {v : Fin (D + 1) → Fin D → ℝ} (hv : Increasing v)
    {φ : ℕ → MvPolynomial (Fin D) ℝ} (h : ExpTabulates D n v φ) :
    DvSpec (fun i : Fin ((n + D).choose D) => φ i) (expDv D (List.ofFn v) n) := by
  have key : ∀ (pts : List (Fin D → ℝ)) (k : Fin ((n + D).choose D)) (j : ℕ) (x : Fin D → ℝ) (i : Fin D),
      pts[j]? = some x → ((pts[j]?).bind fun x => (symbolicDerivatives (d := D) (List.ofFn v) n x).bind fun t =>
        (t[(k : ℕ)]?).bind fun vg => some (vg.2 i)).getD 0 = eval x (pderiv i (φ k)) := by
    intro pts k j x i hx
    rw [hx, Option.bind_some, symbolic_derivatives_spec h, Option.bind_some, List.getElem?_map, List.getElem?_range k.2]
    rfl
  intro pts k j x i hx
  rcases hD with rfl | rfl | rfl
  · obtain rfl : i = 0 := Subsingleton.elim _ _
    exact line_derivatives_spec v (hv rfl) h pts k j (by have := k.2; simp at this; omega) x hx
  · exact key pts k j x i hx
  · exact key pts k j x i hx

theorem verts_ofFn {D : ℕ} (s : SimplexCell (Fin D → ℝ)) (hs : FullSimplex s) (hsd : s.sd = D) :
    s.verts = List.ofFn fun i : Fin (D + 1) => s.v i := by
  have hlen := hs.nverts
  apply List.ext_getElem
  · simp; omega
  · intro i h1 h2
    rw [List.getElem_ofFn]
    simp [SimplexCell.v, h1]

/-- `ONPolynomialSet(cell, k)` from a description of the expansion table. -/
theorem on_set_of_table {D : ℕ} (hD : D = 1 ∨ D = 2 ∨ D = 3) (s : SimplexCell (Fin D → ℝ))
    (hs : ProperSimplex ℝ s) (hv : Increasing fun i : Fin (D + 1) => s.v i) (k : ℕ) (φ : ℕ → MvPolynomial (Fin D) ℝ)
    (h1 : ExpTabulates D k (fun i : Fin (D + 1) => s.v i) φ) (h2 : HierarchicalBasis D k φ) :
    ∃ mats, onPolynomialSet s k = some (onScalarSet ((k + D).choose D) D (expTab s.verts k) mats) ∧
      BaseSpec (fun i : Fin ((k + D).choose D) => φ i) (expTab s.verts k) ∧
      DmatSpec (fun i : Fin ((k + D).choose D) => φ i) mats := by
  obtain ⟨hsd, hfull, hnd, -⟩ := hs
  have hverts := verts_ofFn s hfull hsd
  have hdeg : ∀ i : Fin ((k + D).choose D), (φ i).totalDegree ≤ k := by
    intro i
    rw [← mem_restrictTotalDegree, ← (h2 k le_rfl).2]
    exact Submodule.subset_span ⟨i, rfl⟩
  have hb := exp_base_spec h1
  have hd := exp_dv_spec hD hv h1
  rw [← hverts] at hb hd
  obtain ⟨pts, p1, p2, p3⟩ : ∃ pts, (if k = 0 then some [] else makePoints ℝ s D 0 (k + D + 1)) = some pts ∧
      (k ≠ 0 → pts.length = (k + D).choose D) ∧ (k ≠ 0 → Unisolvent k pts) := by
    by_cases hk : k = 0
    · exact ⟨[], if_pos hk, fun h => absurd hk h, fun h => absurd hk h⟩
    · obtain ⟨pts, p1, p2, p3⟩ := dmats_points_unisolvent (K := ℝ) s hsd hfull hnd (by omega) k
      exact ⟨pts, by rw [if_neg hk, p1], fun _ => p2, fun _ => p3⟩
  obtain ⟨mats, m1, m2⟩ : ∃ mats, onDmats ((k + D).choose D) D k pts (expTab s.verts k) (expDv D s.verts k) = some mats ∧
      DmatSpec (fun i : Fin ((k + D).choose D) => φ i) mats := by
    by_cases hk : k = 0
    · obtain ⟨pts', -, q2, q3⟩ := dmats_points_unisolvent (K := ℝ) s hsd hfull hnd (by omega) k
      obtain ⟨mats, m1, m2⟩ := on_dmats_spec k _ hdeg (h2 k le_rfl).1 pts' q2 q3 _ hb _ hd
      refine ⟨mats, ?_, m2⟩
      unfold onDmats at m1 ⊢
      rw [if_pos hk] at m1 ⊢
      exact m1
    · exact on_dmats_spec k _ hdeg (h2 k le_rfl).1 pts (p2 hk) (p3 hk) _ hb _ hd
  refine ⟨mats, ?_, hb, m2⟩
  unfold onPolynomialSet
  by_cases hk : k = 0
  · rw [if_pos hk] at p1 ⊢
    simp only [p1, Option.bind_eq_bind, Option.bind_some, m1]
  · rw [if_neg hk] at p1 ⊢
    simp only [p1, Option.bind_eq_bind, Option.bind_some, m1]

theorem on_core {D : ℕ} (hD : D = 1 ∨ D = 2 ∨ D = 3) (s : SimplexCell (Fin D → ℝ))
    (hs : ProperSimplex ℝ s) (hv : Increasing fun i : Fin (D + 1) => s.v i) (k : ℕ) :
    ∃ mats, onPolynomialSet s k = some (onScalarSet ((k + D).choose D) D (expTab s.verts k) mats) ∧
      ∃ φ : Fin ((k + D).choose D) → MvPolynomial (Fin D) ℝ, (∀ i, (φ i).totalDegree ≤ k) ∧
      (LinearIndependent ℝ φ ∧ Submodule.span ℝ (Set.range φ) = restrictTotalDegree (Fin D) ℝ k) ∧
      BaseSpec φ (expTab s.verts k) ∧ DmatSpec φ mats := by
  have hind : AffineIndependent ℝ fun i : Fin (D + 1) => s.v i := by
    have hnd := hs.2.2.1
    unfold Nondegenerate at hnd
    rwa [hs.1] at hnd
  obtain ⟨φ, h1, h2⟩ := expansion_sets_hierarchical D hD _ hind k
  obtain ⟨mats, m1, m2, m3⟩ := on_set_of_table hD s hs hv k φ h1 h2
  refine ⟨mats, m1, fun i => φ i, fun i => ?_, h2 k le_rfl, m2, m3⟩
  rw [← mem_restrictTotalDegree, ← (h2 k le_rfl).2]
  exact Submodule.subset_span ⟨i, rfl⟩

private theorem on_member {D N : ℕ} (φ : Fin N → MvPolynomial (Fin D) ℝ) (base : List (Fin D → ℝ) → ℕ → ℕ → ℝ)
    (mats : List (Matrix (Fin N) (Fin N) ℝ)) (i : Fin N) (c : Unit) : (onScalarSet N D base mats).member φ i c = φ i := by
  unfold PolySet.member onScalarSet
  simp only
  rw [Finset.sum_eq_single i]
  · simp
  · intro b _ hb; simp [Ne.symm hb]
  · simp

/-- C17: `ONPolynomialSet(cell, k)` on an interval with increasing vertices, a triangle or a tetrahedron exists for every
degree; its members form a basis of `P_k`; and `tabulate(pts, order)` returns, for each multi-index of order at most
`order`, the values of that partial derivative of every member at every point. -/
theorem on_polynomial_set_spec {D : ℕ} (hD : D = 1 ∨ D = 2 ∨ D = 3) (s : SimplexCell (Fin D → ℝ))
    (hs : ProperSimplex ℝ s) (hv : Increasing fun i : Fin (D + 1) => s.v i) (k : ℕ) :
    ∃ S, onPolynomialSet s k = some S ∧ ∃ φ : Fin ((k + D).choose D) → MvPolynomial (Fin D) ℝ,
      (LinearIndependent ℝ φ ∧ Submodule.span ℝ (Set.range φ) = restrictTotalDegree (Fin D) ℝ k) ∧
      ∀ (pts : List (Fin D → ℝ)) (order : ℕ), ∃ res, S.tabulate pts order = some res ∧
        (∀ α, α ∈ Dict.keys res ↔ α.length = D ∧ α.sum ≤ order) ∧
        ∀ α T, Dict.get? res α = some T → ∀ i c (j : ℕ) x, pts[j]? = some x → T i c j = eval x (iterDeriv α (φ i)) := by
  obtain ⟨mats, h1, φ, -, h2, h3, h4⟩ := on_core hD s hs hv k
  refine ⟨_, h1, φ, h2, fun pts order => ?_⟩
  obtain ⟨res, r1, -, r2, r3⟩ := tabulate_spec (by omega) φ (onScalarSet ((k + D).choose D) D (expTab s.verts k) mats) rfl h3 h4
    pts order
  refine ⟨res, r1, r2, fun α T hT i c j x hx => ?_⟩
  rw [r3 α T hT i c j x hx, on_member]

/-- C17/C18/C20: `Lagrange(cell, k)` for `k ≥ 1` on an interval with increasing vertices, a triangle or a tetrahedron: the
constructor succeeds and `tabulate(order, pts)` returns the values of all partial derivatives of order at most `order` of
the polynomials of degree at most `k` that are 1 at their own node and 0 at the other nodes. -/
theorem lagrange_element_spec {D : ℕ} (hD : D = 1 ∨ D = 2 ∨ D = 3) (s : SimplexCell (Fin D → ℝ))
    (hs : ProperSimplex ℝ s) (hv : Increasing fun i : Fin (D + 1) => s.v i) (k : ℕ) (hk : 1 ≤ k) :
    ∃ el ids nodes, lagrangeElement s k = some (el, ids) ∧ lagrangeDual ℝ s k = some (nodes, ids) ∧
      ∃ ℓ : Fin ((k + D).choose D) → MvPolynomial (Fin D) ℝ, (∀ j, (ℓ j).totalDegree ≤ k) ∧
      (∀ (i : ℕ) x, nodes[i]? = some x → ∀ j, eval x (ℓ j) = if i = (j : ℕ) then 1 else 0) ∧
      ∀ (pts : List (Fin D → ℝ)) (order : ℕ), ∃ res, el.tabulate pts order = some res ∧
        (∀ α, α ∈ Dict.keys res ↔ α.length = D ∧ α.sum ≤ order) ∧
        ∀ α T, Dict.get? res α = some T → ∀ i c (j : ℕ) x, pts[j]? = some x → T i c j = eval x (iterDeriv α (ℓ i)) := by
  obtain ⟨mats, h1, φ, hdeg, h2, h3, h4⟩ := on_core hD s hs hv k
  obtain ⟨hsd, hfull, hnd, -⟩ := hs
  obtain ⟨nodes, ids, d1, d2⟩ := lagrange_num_nodes (K := ℝ) s hfull hnd k hk (by omega)
  obtain ⟨S', c1, c2⟩ := lagrange_ciarlet s hsd hfull hnd (by omega) k hk rfl φ hdeg h2.1 _ h3 mats h4 nodes ids d1
  have hS : S'.base = expTab s.verts k ∧ S'.dmats = mats ∧ S'.sd = D := by
    unfold ciarletElement at c1
    simp only [Option.bind_eq_bind, Option.bind_eq_some_iff] at c1
    obtain ⟨M, -, new, -, e⟩ := c1
    rw [show S' = _ from (Option.some.inj e).symm]
    exact ⟨rfl, rfl, rfl⟩
  refine ⟨S', ids, nodes, ?_, d1, fun j => S'.member φ j (), ?_, ?_, fun pts order => ?_⟩
  · unfold lagrangeElement
    simp only [h1, Option.bind_eq_bind, Option.bind_some, d1]
    have c1' : ciarletElement (onExpTab ((k + D).choose D) D (onScalarSet ((k + D).choose D) D (expTab s.verts k) mats).base
      (onScalarSet ((k + D).choose D) D (expTab s.verts k) mats).dmats) (fun _ : Unit => [])
      (onScalarSet ((k + D).choose D) D (expTab s.verts k) mats) (nodes.map pointEvaluation) = some S' := by
      convert c1 <;> rfl
    rw [c1']
    rfl
  · intro j
    unfold PolySet.member
    refine totalDegree_finsetSum_le fun i _ => ?_
    refine (totalDegree_mul _ _).trans ?_
    rw [totalDegree_C, zero_add]; exact hdeg i
  · intro i x hx j; exact c2 i x hx j
  · rw [← hS.1] at h3
    rw [← hS.2.1] at h4
    obtain ⟨res, r1, -, r2, r3⟩ := tabulate_spec (by omega) φ S' hS.2.2 h3 h4 pts order
    exact ⟨res, r1, r2, fun α T hT i c j x hx => r3 α T hT i c j x hx⟩

/-- The hypotheses are met by the UFC cells; here the interval and the triangle. -/
example : ∃ el ids, lagrangeElement ((ufcTriangle : CellData ℝ).toSimplex 2) 2 = some (el, ids) := by
  obtain ⟨el, ids, _, h, -⟩ := lagrange_element_spec (by norm_num) _ (proper_ufcTriangle (K := ℝ))
    (fun h => absurd h (by norm_num)) 2 (by norm_num)
  exact ⟨el, ids, h⟩

example : ∃ S, onPolynomialSet ((ufcInterval : CellData ℝ).toSimplex 1) 3 = some S := by
  obtain ⟨S, h, -⟩ := on_polynomial_set_spec (by norm_num) _ (proper_ufcInterval (K := ℝ))
    (fun _ => by norm_num [SimplexCell.v, CellData.toSimplex, ufcInterval]) 3
  exact ⟨S, h⟩

/-- A reversed interval, with a member whose derivative is not zero: the sign of the tabulated derivative is wrong. -/
example : ∃ (v : Fin 2 → Fin 1 → ℝ) (φ : ℕ → MvPolynomial (Fin 1) ℝ), ExpTabulates 1 1 v φ ∧ 1e-10 < v 0 0 - v 1 0 := by
  refine ⟨![fun _ => 1, fun _ => 0], ?_⟩
  obtain ⟨φ, h, -⟩ := expansion_sets_hierarchical 1 (by norm_num) ![fun _ => 1, fun _ => 0]
    (affineIndependent_of_ne ℝ fun hh => by simpa using congrFun hh 0) 1
  exact ⟨φ, h, by norm_num⟩

end FIAT
