/-
C30, C44: `create_quadrature` meets the requested degree.
-/
import Verif.Props.QuadTables

namespace FIAT
open MeasureTheory

/-- The Newton iteration is assumed to find the roots of the Jacobi polynomials (which exist: `gauss_nodes_exist`). -/
def NodesOK (gj : ℕ → ℕ → List ℝ) : Prop := ∀ a m : ℕ, GaussNodes a 0 m (gj a m)

theorem nodesOK_exists : ∃ gj, NodesOK gj := by
  choose f hf using fun a m : ℕ => gauss_nodes_exist a 0 m
  exact ⟨f, fun a m => by simpa using hf a m⟩

/-- The cell data are those of the simplex with vertices `v`. -/
def HasVertices {d : ℕ} (data : CellData ℝ) (v : Fin (d + 1) → Fin d → ℝ) : Prop :=
  data.verts = List.ofFn fun i => List.ofFn (v i)

/-- The rule integrates polynomials of total degree at most `N` exactly over the simplex with vertices `v`. -/
def ExactOver {d : ℕ} (R : QRule ℝ (List ℝ)) (v : Fin (d + 1) → Fin d → ℝ) (N : ℕ) : Prop :=
  ∀ p : MvPolynomial (Fin d) ℝ, p.totalDegree ≤ N →
    R.integrate (fun x => MvPolynomial.eval (toVec d x) p) = ∫ x in convexHull ℝ (Set.range v), MvPolynomial.eval x p

private theorem toVec_ofFn {d : ℕ} (x : Fin d → ℝ) : toVec d (List.ofFn x) = x := by
  funext i; simp [toVec]

private theorem verts_vec {d : ℕ} {data : CellData ℝ} {v : Fin (d + 1) → Fin d → ℝ} (h : HasVertices data v) :
    data.verts.map (toVec d) = List.ofFn v := by
  rw [h, List.map_ofFn]
  congr 1
  funext i
  exact toVec_ofFn _

private theorem exact_of_good {d : ℕ} {R : QRule ℝ (Fin d → ℝ)} {v : Fin (d + 1) → Fin d → ℝ} {N : ℕ}
    (h : GoodRule R v N) : ExactOver R.toLists v N := by
  intro p hp
  rw [← h.1 p hp]
  unfold QRule.integrate QRule.toLists
  simp only [List.zip_map_left, List.map_map]
  congr 1
  refine List.map_congr_left fun xw _ => ?_
  simp [toVec_ofFn]

private theorem length_of_good {d : ℕ} {R : QRule ℝ (Fin d → ℝ)} : ∀ x ∈ R.toLists.pts, x.length = d := by
  intro x hx
  obtain ⟨y, -, rfl⟩ := List.mem_map.1 hx
  simp

private theorem mapped_len {d : ℕ} {v' : List (Fin d → ℝ)} {p : List (Fin d → ℝ)} {w : List ℝ} {R : QRule ℝ (Fin d → ℝ)}
    (h : mappedRule v' p w = some R) : R.toLists.wts.length = R.toLists.pts.length := by
  unfold mappedRule at h
  cases h' : makeAffineMapping (defaultVerts d) v' with
  | none => simp [h'] at h
  | some Ab =>
    simp only [h', Option.bind_eq_bind, Option.bind_some] at h
    rw [qrule_mk_iff] at h
    simp only [QRule.toLists, List.length_map]
    rw [h.2.1, h.2.2, h.1]

private def Result {d : ℕ} (R : QRule ℝ (List ℝ)) (v : Fin (d + 1) → Fin d → ℝ) (m : ℕ) : Prop :=
  ExactOver R v (2 * m - 1) ∧ R.pts.length = m ^ d ∧ R.wts.length = R.pts.length ∧ ∀ x ∈ R.pts, x.length = d

private theorem line_result {gj : ℕ → ℕ → List ℝ} (hgj : NodesOK gj) (data : CellData ℝ) (v : Fin 2 → Fin 1 → ℝ)
    (hv : HasVertices data v) (ho : 0 < orientation v) (m : ℕ) (hm : 1 ≤ m) :
    ∃ R, (gaussLineRule (data.verts.map (toVec 1)) m (gj 0 m)).map QRule.toLists = some R ∧ Result R v m := by
  obtain ⟨R, h1, h2, h3⟩ := gauss_line_exact v ho m hm (gj 0 m) (by simpa using hgj 0 m)
  exact ⟨R.toLists, by rw [verts_vec hv, h1]; rfl, exact_of_good h2, by simp [QRule.toLists, h3], mapped_len h1,
    length_of_good⟩

private theorem tri_result {gj : ℕ → ℕ → List ℝ} (hgj : NodesOK gj) (data : CellData ℝ) (v : Fin 3 → Fin 2 → ℝ)
    (hv : HasVertices data v) (ho : 0 < orientation v) (m : ℕ) (hm : 1 ≤ m) :
    ∃ R, (collapsedTriangleRule (data.verts.map (toVec 2)) m (gj 0 m) (gj 1 m)).map QRule.toLists = some R ∧ Result R v m := by
  obtain ⟨R, h1, h2, h3⟩ := collapsed_triangle_exact v ho m hm (gj 0 m) (gj 1 m) (by simpa using hgj 0 m)
    (by simpa using hgj 1 m)
  exact ⟨R.toLists, by rw [verts_vec hv, h1]; rfl, exact_of_good h2, by simp [QRule.toLists, h3, pow_two], mapped_len h1,
    length_of_good⟩

private theorem tet_result {gj : ℕ → ℕ → List ℝ} (hgj : NodesOK gj) (data : CellData ℝ) (v : Fin 4 → Fin 3 → ℝ)
    (hv : HasVertices data v) (ho : 0 < orientation v) (m : ℕ) (hm : 1 ≤ m) :
    ∃ R, (collapsedTetrahedronRule (data.verts.map (toVec 3)) m (gj 0 m) (gj 1 m) (gj 2 m)).map QRule.toLists = some R ∧
      Result R v m := by
  obtain ⟨R, h1, h2, h3⟩ := collapsed_tetrahedron_exact v ho m hm (gj 0 m) (gj 1 m) (gj 2 m) (by simpa using hgj 0 m)
    (by simpa using hgj 1 m) (by simpa using hgj 2 m)
  exact ⟨R.toLists, by rw [verts_vec hv, h1]; rfl, exact_of_good h2, by simp [QRule.toLists, h3]; ring, mapped_len h1,
    length_of_good⟩

/-- C30: `make_quadrature` on a positively oriented simplex with `m ≥ 1` points per direction is exact to `2m-1`. -/
theorem make_quadrature_simplex {gj : ℕ → ℕ → List ℝ} (hgj : NodesOK gj) (cls : CellClass) (d : ℕ) (hd : 1 ≤ d)
    (hcls : cls.sd = d) (data : CellData ℝ) (v : Fin (d + 1) → Fin d → ℝ) (hv : HasVertices data v)
    (ho : 0 < orientation v) (m : ℕ) (hm : 1 ≤ m) :
    ∃ R, makeQuadrature gj cls data m = some R ∧ ExactOver R v (2 * m - 1) ∧ R.pts.length = m ^ d ∧
      R.wts.length = R.pts.length ∧ ∀ x ∈ R.pts, x.length = d := by
  have hm' : ¬((m : ℤ) ≤ 0) := by omega
  unfold makeQuadrature
  rw [if_neg hm', Int.toNat_natCast]
  subst hcls
  cases cls
  case defaultLine => exact line_result hgj data v hv ho m hm
  case ufcInterval => exact line_result hgj data v hv ho m hm
  case defaultTriangle => exact tri_result hgj data v hv ho m hm
  case ufcTriangle => exact tri_result hgj data v hv ho m hm
  case intrepidTriangle => exact tri_result hgj data v hv ho m hm
  case defaultTetrahedron => exact tet_result hgj data v hv ho m hm
  case ufcTetrahedron => exact tet_result hgj data v hv ho m hm
  case intrepidTetrahedron => exact tet_result hgj data v hv ho m hm
  all_goals simp [CellClass.sd] at hd

theorem make_quadrature_rejects (gj : ℕ → ℕ → List ℝ) (cls : CellClass) (data : CellData ℝ) (m : ℤ) (hm : m ≤ 0) :
    makeQuadrature gj cls data m = none := by simp [makeQuadrature, hm]

/-- C30 (simplices, canonical scheme): for every degree `n ≥ 0` the rule returned is exact for total degree `n`.  The
same holds for the default scheme on cells other than the UFC triangle and tetrahedron. -/
theorem create_quadrature_canonical {gj : ℕ → ℕ → List ℝ} (hgj : NodesOK gj) (scheme : Scheme) (cls : CellClass)
    (hs : scheme = .canonical ∨ (scheme = .default ∧ cls ≠ .ufcTriangle ∧ cls ≠ .ufcTetrahedron))
    (d : ℕ) (hd : 1 ≤ d) (hcls : cls.sd = d) (data : CellData ℝ) (cells : List (CellObj ℝ)) (v : Fin (d + 1) → Fin d → ℝ)
    (hv : HasVertices data v) (ho : 0 < orientation v) (n : ℕ) :
    ∃ R, createQuadrature gj scheme (.mk cls data cells) (.int n) = some R ∧ ExactOver R v n ∧
      R.wts.length = R.pts.length ∧ ∀ x ∈ R.pts, x.length = d := by
  obtain ⟨R, h1, h2, -, h3⟩ := make_quadrature_simplex hgj cls d hd hcls data v hv ho ((n + 1 + 1) / 2) (by omega)
  refine ⟨R, ?_, fun p hp => h2 p (by omega), h3⟩
  have h4 : createLeaf gj scheme cls data (.int n) = some R := by
    have e : (((n + 1 + 1) / 2 : ℕ) : ℤ) = ((n : ℤ) + 1 + 1) / 2 := by push_cast; rfl
    have h5 : fiatScheme gj cls data n = some R := by unfold fiatScheme; rw [← e]; exact h1
    have hn : ¬((n : ℤ) < 0) := by omega
    unfold createLeaf
    dsimp only
    rw [if_neg hn]
    rcases hs with rfl | ⟨rfl, hs1, hs2⟩
    · exact h5
    · cases cls <;> first | exact h5 | exact absurd rfl hs1 | exact absurd rfl hs2
  unfold createQuadrature
  cases cls <;> first | exact h4 | (simp [CellClass.sd] at hcls; omega)

/-- C30: on a point every rule is evaluation. -/
theorem create_quadrature_point (gj : ℕ → ℕ → List ℝ) (scheme : Scheme) (hs : scheme = .default ∨ scheme = .canonical)
    (data : CellData ℝ) (cells : List (CellObj ℝ)) (n : ℕ) :
    createQuadrature gj scheme (.mk .point data cells) (.int n) = some ⟨[[]], [1]⟩ := by
  have h5 : fiatScheme gj .point data n = some ⟨[[]], [1]⟩ := by
    have : ¬((n : ℤ) + 1 + 1) / 2 ≤ 0 := by omega
    unfold fiatScheme makeQuadrature
    rw [if_neg this]
  have hn : ¬((n : ℤ) < 0) := by omega
  unfold createQuadrature createLeaf
  dsimp only
  rw [if_neg hn]
  rcases hs with rfl | rfl <;> exact h5

/-- C30: negative degrees are refused on every cell that is no product ... -/
theorem create_quadrature_negative (gj : ℕ → ℕ → List ℝ) (scheme : Scheme) (cls : CellClass) (hc : cls ≠ .tensorProduct)
    (data : CellData ℝ) (cells : List (CellObj ℝ)) (n : ℤ) (hn : n < 0) :
    createQuadrature gj scheme (.mk cls data cells) (.int n) = none := by
  have hl : ∀ cls data, createLeaf gj scheme cls data (.int n) = none := by
    intro cls data; unfold createLeaf; dsimp only; rw [if_pos hn]
  unfold createQuadrature
  cases cls <;> first | exact absurd rfl hc | exact hl _ _ | (unfold createCube; simp [DegArg.broadcast, List.replicate, hl])

/-- ... and so are unknown schemes. -/
theorem create_quadrature_unknown (gj : ℕ → ℕ → List ℝ) (cls : CellClass) (hc : cls ≠ .tensorProduct)
    (data : CellData ℝ) (cells : List (CellObj ℝ)) (n : ℤ) :
    createQuadrature gj .other (.mk cls data cells) (.int n) = none := by
  have hl : ∀ cls data, createLeaf gj .other cls data (.int n) = none := by
    intro cls data; unfold createLeaf; dsimp only; split <;> rfl
  unfold createQuadrature
  cases cls <;> first | exact absurd rfl hc | exact hl _ _ | (unfold createCube; simp [DegArg.broadcast, List.replicate, hl])

/-! ### Products -/

private theorem createAll_some {gj : ℕ → ℕ → List ℝ} {scheme : Scheme} :
    ∀ (cells : List (CellObj ℝ)) (degs : List DegArg) (rules : List (QRule ℝ (List ℝ))), degs.length = cells.length →
      (createAll gj scheme cells degs = some rules ↔
        List.zipWith (createQuadrature gj scheme) cells degs = rules.map some) := by
  intro cells
  induction cells with
  | nil =>
    intro degs rules h
    cases degs with
    | nil => cases rules <;> simp [createAll]
    | cons => simp at h
  | cons c cs ih =>
    intro degs rules h
    cases degs with
    | nil => simp at h
    | cons d ds =>
      have ih' := fun rs => ih ds rs (by simpa using h)
      rw [createAll, List.zipWith_cons_cons]
      cases hq : createQuadrature gj scheme c d with
      | none => cases rules <;> simp
      | some r =>
        cases rules with
        | nil => simp
        | cons r' rs => simp [ih', and_comm]

/-- C30 (products): the degree is broadcast to the factors, or given as a tuple with one entry per factor; the rule is
built exactly when the rules of the factors are, and it integrates products of functions of the factors to the product
of what the factors' rules give.  (The factors may be products themselves.) -/
theorem create_quadrature_tensor (gj : ℕ → ℕ → List ℝ) (scheme : Scheme) (data : CellData ℝ) (cells : List (CellObj ℝ))
    (deg : DegArg) (rules : List (QRule ℝ (List ℝ)))
    (hlen : (deg.broadcast cells.length).length = cells.length)
    (hr : List.zipWith (createQuadrature gj scheme) cells (deg.broadcast cells.length) = rules.map some)
    (hw : ∀ R ∈ rules, R.wts.length = R.pts.length) (fs : List (ℕ × (List ℝ → ℝ))) (hfs : fs.length = rules.length)
    (hn : ∀ k (h1 : k < rules.length) (h2 : k < fs.length), ∀ x ∈ rules[k].pts, x.length = fs[k].1) :
    ∃ T, createQuadrature gj scheme (.mk .tensorProduct data cells) deg = some T ∧
      T.integrate (prodIntegrand fs) =
        (List.zipWith (fun (R : QRule ℝ (List ℝ)) (f : ℕ × (List ℝ → ℝ)) => R.integrate f.2) rules fs).prod := by
  obtain ⟨T, h1, -, h2⟩ := tensor_quadrature_integrate rules fs hw hfs hn
  refine ⟨T, ?_, h2⟩
  unfold createQuadrature
  dsimp only
  rw [if_neg (by simpa using hlen), (createAll_some cells _ rules hlen).2 hr]
  exact h1

/-- C30: a tuple of degrees of the wrong length is refused. -/
theorem create_quadrature_bad_tuple (gj : ℕ → ℕ → List ℝ) (scheme : Scheme) (data : CellData ℝ)
    (cells : List (CellObj ℝ)) (l : List DegArg) (h : l.length ≠ cells.length) :
    createQuadrature gj scheme (.mk .tensorProduct data cells) (.tup l) = none := by
  unfold createQuadrature
  dsimp only [DegArg.broadcast]
  rw [if_pos h]

/-- C30: a scalar degree and the tuple that repeats it give the same rule. -/
theorem create_quadrature_broadcast (gj : ℕ → ℕ → List ℝ) (scheme : Scheme) (data : CellData ℝ)
    (cells : List (CellObj ℝ)) (n : ℤ) :
    createQuadrature gj scheme (.mk .tensorProduct data cells) (.int n) =
      createQuadrature gj scheme (.mk .tensorProduct data cells) (.tup (List.replicate cells.length (.int n))) := by
  unfold createQuadrature
  simp only [DegArg.broadcast]
  rfl

/-! ### Quadrilateral and hexahedron -/

private theorem ufcInterval_verts : HasVertices (ufcInterval : CellData ℝ) (ufcVert 1) := by
  simp [HasVertices, ufcInterval, ufcVert, List.ofFn_succ]

private theorem ufc_orientation (d : ℕ) : 0 < orientation (ufcVert d) := by
  have : (Matrix.of fun i j : Fin d => ufcVert d j.succ i - ufcVert d 0 i) = 1 := by
    ext i j
    simp [ufcVert, Matrix.one_apply, Fin.ext_iff]
  unfold orientation
  rw [this, Matrix.det_one]
  norm_num

private theorem interval_integral (f : ℝ → ℝ) (hf : Continuous f) :
    ∫ x in convexHull ℝ (Set.range (ufcVert 1)), f (x 0) = ∫ t in (0 : ℝ)..1, f t := by
  rw [ufc_integral 1, integral_refSimplex_succ 0 _ (by fun_prop)]
  simp only [pow_zero, one_mul, integral_refSimplex_zero, pow_one]
  have e : ∀ z : ℝ, f (((Fin.snoc (fun i : Fin 0 => (1 - z) / 2 * ((0 : Fin 0 → ℝ) i + 1) - 1) z : Fin 1 → ℝ) 0 + 1) / 2) =
      f (z / 2 + 1 / 2) := by
    intro z
    have : (Fin.snoc (fun i : Fin 0 => (1 - z) / 2 * ((0 : Fin 0 → ℝ) i + 1) - 1) z : Fin 1 → ℝ) 0 = z := by
      have h0 : (0 : Fin 1) = Fin.last 0 := rfl
      rw [h0, Fin.snoc_last]
    rw [this]; congr 1; ring
  simp only [e]
  rw [intervalIntegral.integral_comp_div_add (f := f) (by norm_num : (2 : ℝ) ≠ 0)]
  norm_num
  ring

private theorem interval_leaf {gj : ℕ → ℕ → List ℝ} (hgj : NodesOK gj) (scheme : Scheme)
    (hs : scheme = .canonical ∨ scheme = .default) (n : ℕ) :
    ∃ R, createLeaf gj scheme .ufcInterval ufcInterval (.int n) = some R ∧ R.wts.length = R.pts.length ∧
      (∀ x ∈ R.pts, x.length = 1) ∧ ∀ p : Polynomial ℝ, p.natDegree ≤ n →
        R.integrate (fun x => p.eval (x.getD 0 0)) = ∫ t in (0 : ℝ)..1, p.eval t := by
  obtain ⟨R, h1, h2, h3, h4⟩ := create_quadrature_canonical hgj scheme .ufcInterval
    (by rcases hs with rfl | rfl <;> simp) 1 le_rfl rfl ufcInterval [] (ufcVert 1) ufcInterval_verts (ufc_orientation 1) n
  refine ⟨R, h1, h3, h4, fun p hp => ?_⟩
  let q : MvPolynomial (Fin 1) ℝ := p.aeval (MvPolynomial.X 0)
  have hq : ∀ x, MvPolynomial.eval x q = p.eval (x 0) := by
    intro x
    simp only [q, Polynomial.aeval_def, Polynomial.eval₂_eq_sum_range, map_sum, map_mul, map_pow, MvPolynomial.eval_X,
      Polynomial.eval_eq_sum_range]
    refine Finset.sum_congr rfl fun i _ => ?_
    rw [MvPolynomial.algebraMap_eq, MvPolynomial.eval_C]
  have hqd : q.totalDegree ≤ n := by
    simp only [q, Polynomial.aeval_def, Polynomial.eval₂_eq_sum_range]
    refine MvPolynomial.totalDegree_finsetSum_le fun i hi => ?_
    refine (MvPolynomial.totalDegree_mul _ _).trans ?_
    rw [MvPolynomial.algebraMap_eq, MvPolynomial.totalDegree_C, zero_add, MvPolynomial.totalDegree_X_pow]
    have := Finset.mem_range.1 hi
    omega
  have := h2 q hqd
  simp only [hq] at this
  rw [interval_integral (fun t => p.eval t) p.continuous] at this
  rw [← this]
  congr 1

private theorem prodIntegrand_cube (ps : List (Polynomial ℝ)) : ∀ (x : List ℝ),
    prodIntegrand (ps.map fun p => (1, fun y : List ℝ => p.eval (y.getD 0 0))) x =
      ((ps.zipIdx).map fun pi => pi.1.eval (x.getD pi.2 0)).prod := by
  have key : ∀ (ps : List (Polynomial ℝ)) (x : List ℝ) (k : ℕ),
      prodIntegrand (ps.map fun p => (1, fun y : List ℝ => p.eval (y.getD 0 0))) (x.drop k) =
        ((ps.zipIdx k).map fun pi => pi.1.eval (x.getD pi.2 0)).prod := by
    intro ps
    induction ps with
    | nil => intro x k; simp [prodIntegrand]
    | cons p ps ih =>
      intro x k
      rw [List.map_cons, prodIntegrand, List.zipIdx_cons, List.map_cons, List.prod_cons, List.drop_drop, ih]
      congr 2
      simp [List.getD_eq_getElem?_getD, List.getElem?_take]
  intro x
  exact key ps x 0

private theorem cube_exact {gj : ℕ → ℕ → List ℝ} (hgj : NodesOK gj) (scheme : Scheme)
    (hs : scheme = .canonical ∨ scheme = .default) (k n : ℕ) :
    ∃ T, createCube gj scheme k (.int n) = some T ∧ ∀ ps : List (Polynomial ℝ), ps.length = k →
      (∀ p ∈ ps, p.natDegree ≤ n) →
      T.integrate (fun x => ((ps.zipIdx).map fun pi => pi.1.eval (x.getD pi.2 0)).prod) =
        (ps.map fun p => ∫ t in (0 : ℝ)..1, p.eval t).prod := by
  obtain ⟨R, h1, h2, h3, h4⟩ := interval_leaf hgj scheme hs n
  have hw : ∀ R' ∈ List.replicate k R, R'.wts.length = R'.pts.length := by
    intro R' hR'; rw [List.eq_of_mem_replicate hR']; exact h2
  obtain ⟨T, t1, -, -⟩ := tensor_quadrature_integrate (List.replicate k R) (List.replicate k (1, fun _ => 1)) hw (by simp) (by
    intro i h1 h2 x hx
    simp only [List.getElem_replicate] at hx ⊢
    exact h3 x hx)
  have hm : ∀ k : ℕ, (List.replicate k (DegArg.int n)).mapM (createLeaf gj scheme .ufcInterval ufcInterval) =
      some (List.replicate k R) := by
    intro k
    induction k with
    | zero => rfl
    | succ k ih => rw [List.replicate_succ, List.mapM_cons, h1, ih]; rfl
  refine ⟨T, ?_, fun ps hps hdeg => ?_⟩
  · unfold createCube
    simp only [DegArg.broadcast, List.length_replicate, ne_eq, not_true_eq_false, if_false, hm]
    exact t1
  · obtain ⟨T', t1', -, t2'⟩ := tensor_quadrature_integrate (List.replicate k R)
      (ps.map fun p => (1, fun y : List ℝ => p.eval (y.getD 0 0))) hw (by simp [hps]) (by
      intro i h1 h2 x hx
      simp only [List.getElem_replicate, List.getElem_map] at hx ⊢
      exact h3 x hx)
    rw [t1, Option.some.injEq] at t1'
    subst t1'
    have e : (fun x : List ℝ => ((ps.zipIdx).map fun pi => pi.1.eval (x.getD pi.2 0)).prod) =
        prodIntegrand (ps.map fun p => (1, fun y : List ℝ => p.eval (y.getD 0 0))) := by
      funext x; rw [prodIntegrand_cube]
    rw [e, t2']
    congr 1
    apply List.ext_getElem
    · simp [hps]
    · intro i hi1 hi2
      simp only [List.getElem_zipWith, List.getElem_replicate, List.getElem_map]
      exact h4 _ (hdeg _ (List.getElem_mem _))

/-- C30 (quadrilateral): products `p₀(x) p₁(y)` of polynomials of degree at most `n` are integrated exactly over the
unit square (and with them, by `integrate_linear`, their linear combinations). -/
theorem create_quadrature_quadrilateral {gj : ℕ → ℕ → List ℝ} (hgj : NodesOK gj) (scheme : Scheme)
    (hs : scheme = .canonical ∨ scheme = .default) (data : CellData ℝ) (cells : List (CellObj ℝ)) (n : ℕ) :
    ∃ T, createQuadrature gj scheme (.mk .ufcQuadrilateral data cells) (.int n) = some T ∧
      ∀ p₀ p₁ : Polynomial ℝ, p₀.natDegree ≤ n → p₁.natDegree ≤ n →
        T.integrate (fun x => p₀.eval (x.getD 0 0) * p₁.eval (x.getD 1 0)) =
          (∫ t in (0 : ℝ)..1, p₀.eval t) * ∫ t in (0 : ℝ)..1, p₁.eval t := by
  obtain ⟨T, h1, h2⟩ := cube_exact hgj scheme hs 2 n
  refine ⟨T, by unfold createQuadrature; exact h1, fun p₀ p₁ hp0 hp1 => ?_⟩
  have := h2 [p₀, p₁] rfl (by simp [hp0, hp1])
  simpa [List.zipIdx_cons] using this

/-- C30 (hexahedron). -/
theorem create_quadrature_hexahedron {gj : ℕ → ℕ → List ℝ} (hgj : NodesOK gj) (scheme : Scheme)
    (hs : scheme = .canonical ∨ scheme = .default) (data : CellData ℝ) (cells : List (CellObj ℝ)) (n : ℕ) :
    ∃ T, createQuadrature gj scheme (.mk .ufcHexahedron data cells) (.int n) = some T ∧
      ∀ p₀ p₁ p₂ : Polynomial ℝ, p₀.natDegree ≤ n → p₁.natDegree ≤ n → p₂.natDegree ≤ n →
        T.integrate (fun x => p₀.eval (x.getD 0 0) * (p₁.eval (x.getD 1 0) * p₂.eval (x.getD 2 0))) =
          (∫ t in (0 : ℝ)..1, p₀.eval t) * ((∫ t in (0 : ℝ)..1, p₁.eval t) * ∫ t in (0 : ℝ)..1, p₂.eval t) := by
  obtain ⟨T, h1, h2⟩ := cube_exact hgj scheme hs 3 n
  refine ⟨T, by unfold createQuadrature; exact h1, fun p₀ p₁ p₂ hp0 hp1 hp2 => ?_⟩
  have := h2 [p₀, p₁, p₂] rfl (by simp [hp0, hp1, hp2])
  simpa [List.zipIdx_cons] using this

/-! ### C44: the default scheme on the UFC triangle and tetrahedron -/

private theorem ufcTriangle_verts : HasVertices (ufcTriangle : CellData ℝ) (ufcVert 2) := by
  simp [HasVertices, ufcTriangle, ufcVert, List.ofFn_succ]

private theorem ufcTetrahedron_verts : HasVertices (ufcTetrahedron : CellData ℝ) (ufcVert 3) := by
  simp [HasVertices, ufcTetrahedron, ufcVert, List.ofFn_succ]

/-- C44: for every degree `n ≥ 0` the default rule on the UFC triangle integrates polynomials of total degree `n` with
an error of at most `2e-15` relative to the coefficients (the decimals of the tables have 15 to 17 digits), and exactly
for `n ≤ 2` (rational data) and `n ≥ 7` (collapsed rule). -/
theorem default_triangle {gj : ℕ → ℕ → List ℝ} (hgj : NodesOK gj) (data : CellData ℝ) (cells : List (CellObj ℝ)) (n : ℕ) :
    ∃ R, createQuadrature gj .default (.mk .ufcTriangle data cells) (.int n) = some R ∧ WithinOn R 2 n (2e-15) ∧
      (n ≤ 2 ∨ 7 ≤ n → WithinOn R 2 n 0) := by
  have hn : ¬((n : ℤ) < 0) := by omega
  have hc : createQuadrature gj .default (.mk .ufcTriangle data cells) (.int n) = triangleScheme gj n := by
    unfold createQuadrature createLeaf
    dsimp only
    rw [if_neg hn]
  rw [hc]
  unfold triangleScheme
  cases ht : triangleTable n with
  | some T =>
    obtain ⟨h1, h2, h3⟩ := triangle_table_within n T ht
    refine ⟨T.cast ℝ, h1, h2, fun h => h3 ?_⟩
    rcases h with h | h
    · exact h
    · rw [(triangle_table_none n).2 h] at ht; simp at ht
  | none =>
    obtain ⟨R, h1, h2, -⟩ := create_quadrature_canonical hgj .canonical .ufcTriangle (Or.inl rfl) 2 (by norm_num) rfl
      ufcTriangle [] (ufcVert 2) ufcTriangle_verts (ufc_orientation 2) n
    have h1' : fiatScheme gj .ufcTriangle ufcTriangle n = some R := by
      unfold createQuadrature createLeaf at h1
      dsimp only at h1
      rwa [if_neg hn] at h1
    have h3 : WithinOn R 2 n 0 := (withinOn_zero_iff R 2 n).2 h2
    exact ⟨R, h1', h3.mono le_rfl (by norm_num), fun _ => h3⟩

/-- C44, tetrahedron: exact for `n ≤ 1` and `n ≥ 7`. -/
theorem default_tetrahedron {gj : ℕ → ℕ → List ℝ} (hgj : NodesOK gj) (data : CellData ℝ) (cells : List (CellObj ℝ)) (n : ℕ) :
    ∃ R, createQuadrature gj .default (.mk .ufcTetrahedron data cells) (.int n) = some R ∧ WithinOn R 3 n (2e-15) ∧
      (n ≤ 1 ∨ 7 ≤ n → WithinOn R 3 n 0) := by
  have hn : ¬((n : ℤ) < 0) := by omega
  have hc : createQuadrature gj .default (.mk .ufcTetrahedron data cells) (.int n) = tetrahedronScheme gj n := by
    unfold createQuadrature createLeaf
    dsimp only
    rw [if_neg hn]
  rw [hc]
  unfold tetrahedronScheme
  cases ht : tetrahedronTable n with
  | some T =>
    obtain ⟨h1, h2, h3⟩ := tetrahedron_table_within n T ht
    refine ⟨T.cast ℝ, h1, h2, fun h => h3 ?_⟩
    rcases h with h | h
    · exact h
    · rw [(tetrahedron_table_none n).2 h] at ht; simp at ht
  | none =>
    obtain ⟨R, h1, h2, -⟩ := create_quadrature_canonical hgj .canonical .ufcTetrahedron (Or.inl rfl) 3 (by norm_num) rfl
      ufcTetrahedron [] (ufcVert 3) ufcTetrahedron_verts (ufc_orientation 3) n
    have h1' : fiatScheme gj .ufcTetrahedron ufcTetrahedron n = some R := by
      unfold createQuadrature createLeaf at h1
      dsimp only at h1
      rwa [if_neg hn] at h1
    have h3 : WithinOn R 3 n 0 := (withinOn_zero_iff R 3 n).2 h2
    exact ⟨R, h1', h3.mono le_rfl (by norm_num), fun _ => h3⟩

/-- The hypotheses are met: the nodes exist, and a product of a triangle with an interval gets its rule. -/
example (n : ℕ) : ∃ gj, NodesOK gj ∧ ∃ T, createQuadrature gj .canonical
    (CellObj.tensor [.new .ufcTriangle, .new .ufcInterval]) (.int n) = some T := by
  obtain ⟨gj, hgj⟩ := nodesOK_exists
  refine ⟨gj, hgj, ?_⟩
  obtain ⟨R, h1, -, h2, h3⟩ := create_quadrature_canonical hgj .canonical .ufcTriangle (Or.inl rfl) 2 (by norm_num) rfl
    ufcTriangle [] (ufcVert 2) ufcTriangle_verts (ufc_orientation 2) n
  obtain ⟨S, k1, -, k2, k3⟩ := create_quadrature_canonical hgj .canonical .ufcInterval (Or.inl rfl) 1 (by norm_num) rfl
    ufcInterval [] (ufcVert 1) ufcInterval_verts (ufc_orientation 1) n
  obtain ⟨T, t1, -⟩ := create_quadrature_tensor gj .canonical
    (tensorProductCell ([CellObj.new .ufcTriangle, CellObj.new .ufcInterval].map CellObj.data))
    [.new .ufcTriangle, .new .ufcInterval] (.int n) [R, S] (by simp [DegArg.broadcast])
    (by simp only [DegArg.broadcast, List.length_cons, List.length_nil, List.replicate, List.zipWith_cons_cons,
          List.zipWith_nil_right, List.map_cons, List.map_nil, CellObj.new, CellClass.data]
        rw [h1, k1]) (by simp [h2, k2]) [(2, fun _ => 1), (1, fun _ => 1)] rfl (by
      intro k hk1 hk2 x hx
      match k, hk1, hk2 with
      | 0, _, _ => exact h3 x hx
      | 1, _, _ => exact k3 x hx)
  exact ⟨T, t1⟩

end FIAT
