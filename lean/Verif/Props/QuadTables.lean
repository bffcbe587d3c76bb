/-
C44: the hard-coded tables of `_triangle_scheme`, `_tetrahedron_scheme` and `_kmv_lump_scheme` integrate every
polynomial of the stated degree over the UFC simplex, up to the rounding of the decimal literals, and exactly where the
data are rational numbers.

Specification: the integral is the Lebesgue integral over the convex hull of the vertices of the UFC simplex; the error
is measured relative to the sum of the absolute values of the polynomial's coefficients.
-/
import Verif.Model.QuadratureSchemes
import Verif.Lemmas.Dirichlet
import Verif.Props.Quadrature

namespace FIAT
open MeasureTheory

/-- The rule integrates every polynomial of total degree at most `N` over the UFC simplex of dimension `d`
with an error of at most `eps` times the sum of the absolute values of its coefficients. -/
def WithinOn (R : QRule ℝ (List ℝ)) (d N : ℕ) (eps : ℝ) : Prop :=
  ∀ p : MvPolynomial (Fin d) ℝ, p.totalDegree ≤ N →
    |R.integrate (fun x => MvPolynomial.eval (toVec d x) p) -
      ∫ x in convexHull ℝ (Set.range (ufcVert d)), MvPolynomial.eval x p| ≤ eps * ∑ m ∈ p.support, |p.coeff m|

/-- `WithinOn` with error zero is exactness. -/
theorem withinOn_zero_iff (R : QRule ℝ (List ℝ)) (d N : ℕ) : WithinOn R d N 0 ↔
    ∀ p : MvPolynomial (Fin d) ℝ, p.totalDegree ≤ N → R.integrate (fun x => MvPolynomial.eval (toVec d x) p) =
      ∫ x in convexHull ℝ (Set.range (ufcVert d)), MvPolynomial.eval x p := by
  constructor
  · intro h p hp
    have := h p hp
    rw [zero_mul, abs_nonpos_iff, sub_eq_zero] at this
    exact this
  · intro h p hp
    rw [h p hp]; simp

/-! ### The check of a table on monomials, in rational arithmetic -/

/-- Exponents of the monomials in `d` variables of total degree at most `N`. -/
private def monos : ℕ → ℕ → List (List ℕ)
  | 0, _ => [[]]
  | d + 1, N => (List.range (N + 1)).flatMap fun a => (monos d (N - a)).map fun l => a :: l

private def monoVal (x : List ℚ) (a : List ℕ) : ℚ := (List.zipWith (fun c k => c ^ k) x a).prod

private def monoInt (d : ℕ) (a : List ℕ) : ℚ := ((a.map Nat.factorial).prod : ℕ) / ((d + a.sum).factorial : ℕ)

private def tableErr (R : QRule ℚ (List ℚ)) (d : ℕ) (a : List ℕ) : ℚ :=
  ((R.pts.zip R.wts).map fun xw => xw.2 * monoVal xw.1 a).sum - monoInt d a

private def tableOk (R : QRule ℚ (List ℚ)) (d N : ℕ) (eps : ℚ) : Bool :=
  (R.pts.all fun x => decide (x.length = d)) && decide (R.wts.length = R.pts.length) &&
  (monos d N).all fun a => decide (tableErr R d a ≤ eps) && decide (-eps ≤ tableErr R d a)

private theorem mem_monos (d : ℕ) : ∀ (N : ℕ) (m : Fin d → ℕ), ∑ i, m i ≤ N → List.ofFn m ∈ monos d N := by
  induction d with
  | zero => intro N m _; simp [monos]
  | succ d ih =>
    intro N m h
    rw [Fin.sum_univ_succ] at h
    rw [List.ofFn_succ, monos, List.mem_flatMap]
    refine ⟨m 0, List.mem_range.2 (by omega), List.mem_map.2 ⟨_, ih (N - m 0) _ (by omega), rfl⟩⟩

private theorem monoVal_eq {d : ℕ} (x : List ℚ) (hx : x.length = d) (m : Fin d → ℕ) :
    ((monoVal x (List.ofFn m) : ℚ) : ℝ) = ∏ i, toVec d (x.map fun q : ℚ => (q : ℝ)) i ^ m i := by
  subst hx
  have e : List.zipWith (fun (c : ℚ) (k : ℕ) => c ^ k) x (List.ofFn m) = List.ofFn fun i : Fin x.length => x[i] ^ m i := by
    apply List.ext_getElem
    · simp
    · intro i h1 h2; simp
  unfold monoVal
  rw [e, List.prod_ofFn]
  push_cast
  refine Finset.prod_congr rfl fun i _ => ?_
  simp [toVec]

private theorem monoInt_eq {d : ℕ} (m : Fin d → ℕ) :
    ((monoInt d (List.ofFn m) : ℚ) : ℝ) = (∏ i, (m i).factorial : ℕ) / (d + ∑ i, m i).factorial := by
  unfold monoInt
  rw [List.map_ofFn, List.prod_ofFn, List.sum_ofFn]
  push_cast
  rfl

private theorem within_of_ok (R : QRule ℚ (List ℚ)) (d N : ℕ) (eps : ℚ) (h : tableOk R d N eps = true) :
    WithinOn (R.cast ℝ) d N eps := by
  simp only [tableOk, Bool.and_eq_true, List.all_eq_true, decide_eq_true_eq] at h
  obtain ⟨⟨hlen, -⟩, hm⟩ := h
  intro p hp
  have h1 : (R.cast ℝ).integrate (fun x => MvPolynomial.eval (toVec d x) p) =
      ∑ m ∈ p.support, p.coeff m * ((((R.pts.zip R.wts).map fun xw => xw.2 * monoVal xw.1 (List.ofFn m)).sum : ℚ) : ℝ) := by
    unfold QRule.integrate QRule.cast
    simp only [List.zip_map, List.map_map, MvPolynomial.eval_eq']
    have e : ∀ xw ∈ R.pts.zip R.wts, ((fun xw : List ℝ × ℝ => xw.2 * ∑ m ∈ p.support, p.coeff m * ∏ i, toVec d xw.1 i ^ m i) ∘
        Prod.map (List.map fun q : ℚ => (q : ℝ)) fun q : ℚ => (q : ℝ)) xw =
        ∑ m ∈ p.support, p.coeff m * ((xw.2 * monoVal xw.1 (List.ofFn m) : ℚ) : ℝ) := by
      intro xw hxw
      simp only [Function.comp_apply, Prod.map_fst, Prod.map_snd, Finset.mul_sum]
      refine Finset.sum_congr rfl fun m _ => ?_
      push_cast
      rw [monoVal_eq xw.1 (hlen _ (List.of_mem_zip hxw).1)]
      ring
    rw [List.map_congr_left e]
    have hsum : ∀ (l : List (List ℚ × ℚ)), (l.map fun xw => ∑ m ∈ p.support, p.coeff m *
        ((xw.2 * monoVal xw.1 (List.ofFn m) : ℚ) : ℝ)).sum =
        ∑ m ∈ p.support, p.coeff m * (((l.map fun xw => xw.2 * monoVal xw.1 (List.ofFn m)).sum : ℚ) : ℝ) := by
      intro l
      induction l with
      | nil => simp
      | cons a l ih =>
        simp only [List.map_cons, List.sum_cons, ih, ← Finset.sum_add_distrib, Rat.cast_add, mul_add]
    exact hsum _
  rw [h1, ufc_poly, ← Finset.sum_sub_distrib, Finset.mul_sum]
  refine (Finset.abs_sum_le_sum_abs _ _).trans (Finset.sum_le_sum fun m hms => ?_)
  rw [← mul_sub, abs_mul, mul_comm]
  refine mul_le_mul_of_nonneg_right ?_ (abs_nonneg _)
  have hdeg : ∑ i, m i ≤ N := by
    have := MvPolynomial.le_totalDegree hms
    rw [Finsupp.sum_fintype _ _ (by simp)] at this
    exact this.trans hp
  have hok := hm _ (mem_monos d N m hdeg)
  rw [← monoInt_eq, ← Rat.cast_sub]
  have : (((R.pts.zip R.wts).map fun xw => xw.2 * monoVal xw.1 (List.ofFn m)).sum - monoInt d (List.ofFn m)) =
      tableErr R d (List.ofFn m) := rfl
  rw [this, ← Rat.cast_abs, Rat.cast_le, abs_le]
  exact ⟨hok.2, hok.1⟩

private theorem len_of_ok (R : QRule ℚ (List ℚ)) (d N : ℕ) (eps : ℚ) (h : tableOk R d N eps = true) :
    QRule.mk? (R.cast ℝ).pts (R.cast ℝ).wts = some (R.cast ℝ) := by
  simp only [tableOk, Bool.and_eq_true, decide_eq_true_eq] at h
  rw [qrule_mk_iff]
  exact ⟨by simp [QRule.cast, h.1.2], rfl, rfl⟩

theorem WithinOn.mono {R : QRule ℝ (List ℝ)} {d N N' : ℕ} {eps eps' : ℝ} (h : WithinOn R d N eps) (hN : N' ≤ N)
    (he : eps ≤ eps') : WithinOn R d N' eps' := by
  intro p hp
  refine (h p (hp.trans hN)).trans ?_
  exact mul_le_mul_of_nonneg_right he (Finset.sum_nonneg fun _ _ => abs_nonneg _)

private theorem tri1 : tableOk triTable1 2 1 0 = true := by decide +kernel
private theorem tri2 : tableOk triTable2 2 2 0 = true := by decide +kernel
private theorem tri3 : tableOk triTable3 2 3 (2e-15) = true := by decide +kernel
private theorem tri4 : tableOk triTable4 2 4 (2e-15) = true := by decide +kernel
private theorem tri5 : tableOk triTable5 2 5 (2e-15) = true := by decide +kernel
private theorem tri6 : tableOk triTable6 2 6 (2e-15) = true := by decide +kernel
private theorem tet1 : tableOk tetTable1 3 1 0 = true := by decide +kernel
private theorem tet2 : tableOk tetTable2 3 2 (2e-15) = true := by decide +kernel
private theorem tet3 : tableOk tetTable3 3 3 (2e-15) = true := by decide +kernel
private theorem tet4 : tableOk tetTable4 3 4 (2e-15) = true := by decide +kernel
private theorem tet5 : tableOk tetTable5 3 5 (2e-15) = true := by decide +kernel
private theorem tet6 : tableOk tetTable6 3 6 (2e-15) = true := by decide +kernel


/-! ### Triangle and tetrahedron: for every requested degree -/

section
variable {gj : ℕ → ℕ → List ℝ}

theorem triangle_table_within (n : ℕ) (R : QRule ℚ (List ℚ)) (h : triangleTable n = some R) :
    QRule.mk? (R.cast ℝ).pts (R.cast ℝ).wts = some (R.cast ℝ) ∧ WithinOn (R.cast ℝ) 2 n (2e-15) ∧
      (n ≤ 2 → WithinOn (R.cast ℝ) 2 n 0) := by
  have e0 : ((2e-15 : ℚ) : ℝ) = 2e-15 := by norm_num
  have z0 : ((0 : ℚ) : ℝ) = 0 := by norm_num
  have zle : (0 : ℝ) ≤ 2e-15 := by norm_num
  match n, h with
  | 0, h | 1, h =>
    obtain rfl : triTable1 = R := by simpa [triangleTable] using h
    have := within_of_ok _ _ _ _ tri1
    rw [z0] at this
    exact ⟨len_of_ok _ _ _ _ tri1, this.mono (by norm_num) zle, fun _ => this.mono (by norm_num) le_rfl⟩
  | 2, h =>
    obtain rfl : triTable2 = R := by simpa [triangleTable] using h
    have := within_of_ok _ _ _ _ tri2
    rw [z0] at this
    exact ⟨len_of_ok _ _ _ _ tri2, this.mono (by norm_num) zle, fun _ => this.mono (by norm_num) le_rfl⟩
  | 3, h =>
    obtain rfl : triTable3 = R := by simpa [triangleTable] using h
    exact ⟨len_of_ok _ _ _ _ tri3, e0 ▸ within_of_ok _ _ _ _ tri3, by omega⟩
  | 4, h =>
    obtain rfl : triTable4 = R := by simpa [triangleTable] using h
    exact ⟨len_of_ok _ _ _ _ tri4, e0 ▸ within_of_ok _ _ _ _ tri4, by omega⟩
  | 5, h =>
    obtain rfl : triTable5 = R := by simpa [triangleTable] using h
    exact ⟨len_of_ok _ _ _ _ tri5, e0 ▸ within_of_ok _ _ _ _ tri5, by omega⟩
  | 6, h =>
    obtain rfl : triTable6 = R := by simpa [triangleTable] using h
    exact ⟨len_of_ok _ _ _ _ tri6, e0 ▸ within_of_ok _ _ _ _ tri6, by omega⟩
  | n + 7, h =>
    simp only [triangleTable] at h
    cases h

theorem triangle_table_none (n : ℕ) : triangleTable n = none ↔ 7 ≤ n := by
  match n with
  | 0 | 1 | 2 | 3 | 4 | 5 | 6 => simp [triangleTable]
  | n + 7 =>
    simp only [triangleTable]
    simp

theorem tetrahedron_table_within (n : ℕ) (R : QRule ℚ (List ℚ)) (h : tetrahedronTable n = some R) :
    QRule.mk? (R.cast ℝ).pts (R.cast ℝ).wts = some (R.cast ℝ) ∧ WithinOn (R.cast ℝ) 3 n (2e-15) ∧
      (n ≤ 1 → WithinOn (R.cast ℝ) 3 n 0) := by
  have e0 : ((2e-15 : ℚ) : ℝ) = 2e-15 := by norm_num
  have z0 : ((0 : ℚ) : ℝ) = 0 := by norm_num
  have zle : (0 : ℝ) ≤ 2e-15 := by norm_num
  match n, h with
  | 0, h | 1, h =>
    obtain rfl : tetTable1 = R := by simpa [tetrahedronTable] using h
    have := within_of_ok _ _ _ _ tet1
    rw [z0] at this
    exact ⟨len_of_ok _ _ _ _ tet1, this.mono (by norm_num) zle, fun _ => this.mono (by norm_num) le_rfl⟩
  | 2, h =>
    obtain rfl : tetTable2 = R := by simpa [tetrahedronTable] using h
    exact ⟨len_of_ok _ _ _ _ tet2, e0 ▸ within_of_ok _ _ _ _ tet2, by omega⟩
  | 3, h =>
    obtain rfl : tetTable3 = R := by simpa [tetrahedronTable] using h
    exact ⟨len_of_ok _ _ _ _ tet3, e0 ▸ within_of_ok _ _ _ _ tet3, by omega⟩
  | 4, h =>
    obtain rfl : tetTable4 = R := by simpa [tetrahedronTable] using h
    exact ⟨len_of_ok _ _ _ _ tet4, e0 ▸ within_of_ok _ _ _ _ tet4, by omega⟩
  | 5, h =>
    obtain rfl : tetTable5 = R := by simpa [tetrahedronTable] using h
    exact ⟨len_of_ok _ _ _ _ tet5, e0 ▸ within_of_ok _ _ _ _ tet5, by omega⟩
  | 6, h =>
    obtain rfl : tetTable6 = R := by simpa [tetrahedronTable] using h
    exact ⟨len_of_ok _ _ _ _ tet6, e0 ▸ within_of_ok _ _ _ _ tet6, by omega⟩
  | n + 7, h =>
    simp only [tetrahedronTable] at h
    cases h

theorem tetrahedron_table_none (n : ℕ) : tetrahedronTable n = none ↔ 7 ≤ n := by
  match n with
  | 0 | 1 | 2 | 3 | 4 | 5 | 6 => simp [tetrahedronTable]
  | n + 7 =>
    simp only [tetrahedronTable]
    simp

end

/-! ### The KMV tables on the UFC simplices -/

/-- The degree to which the KMV rule of degree `k` on the simplex of dimension `sd` is exact. -/
def kmvPrecision : ℕ → ℕ → ℕ
  | 2, 1 => 1 | 2, 2 => 3 | 2, 3 => 5 | 2, 4 => 7 | 2, 5 => 10
  | 3, 1 => 1 | 3, 2 => 3 | 3, 3 => 5
  | _, _ => 0

private theorem li1 : latticeIter 1 2 1 = [[1]] := by decide
private theorem li2 : latticeIter 1 3 2 = [[1, 1]] := by decide

private theorem mid : edgeMidpoints (ufcTriangle : CellData ℝ) = some [[1 / 2, 1 / 2], [0, 1 / 2], [1 / 2, 0]] := by
  simp [edgeMidpoints, cellPoints, makePoints, CellData.toSimplex, ufcTriangle, intTopo, Dict.get?, Key.toNat,
    verticesOf, makeLatticeL, makeLattice, li1, natCombo]
  norm_num

private theorem bary : cellPoints (ufcTriangle : CellData ℝ) 2 2 0 3 = some [[1 / 3, 1 / 3]] := by
  simp [cellPoints, makePoints, CellData.toSimplex, ufcTriangle, makeLatticeL, makeLattice, li2, natCombo]

private def kv (sd : ℕ) : List (List ℚ) :=
  if sd = 2 then (ufcTriangle : CellData ℚ).verts else (ufcTetrahedron : CellData ℚ).verts

private def kmids : List (List ℚ) := [[1 / 2, 1 / 2], [0, 1 / 2], [1 / 2, 0]]

private def kmvR : ℕ → ℕ → QRule ℚ (List ℚ)
  | 2, 1 => ⟨kv 2, List.replicate 3 (1 / 6)⟩
  | 3, 1 => ⟨kv 3, List.replicate 4 (1 / 24)⟩
  | 2, 2 => ⟨kv 2 ++ kmids ++ [[1 / 3, 1 / 3]], kmvTri2Wts⟩
  | 3, 2 => ⟨kv 3 ++ kmvTet2Pts, kmvTet2Wts⟩
  | 2, 3 => ⟨kv 2 ++ kmvTri3Pts, kmvTri3Wts⟩
  | 3, 3 => ⟨kv 3 ++ kmvTet3Pts, kmvTet3Wts⟩
  | 2, 4 => ⟨kv 2 ++ kmids ++ kmvTri4Pts, kmvTri4Wts⟩
  | 2, 5 => ⟨kv 2 ++ kmvTri5Pts, kmvTri5Wts⟩
  | _, _ => ⟨[], []⟩

private theorem kmv21 : tableOk (kmvR 2 1) 2 1 0 = true := by decide +kernel
private theorem kmv22 : tableOk (kmvR 2 2) 2 3 0 = true := by decide +kernel
private theorem kmv23 : tableOk (kmvR 2 3) 2 5 (2e-15) = true := by decide +kernel
private theorem kmv24 : tableOk (kmvR 2 4) 2 7 (2e-15) = true := by decide +kernel
private theorem kmv25 : tableOk (kmvR 2 5) 2 10 (2e-15) = true := by decide +kernel
private theorem kmv31 : tableOk (kmvR 3 1) 3 1 0 = true := by decide +kernel
private theorem kmv32 : tableOk (kmvR 3 2) 3 3 (2e-15) = true := by decide +kernel
private theorem kmv33 : tableOk (kmvR 3 3) 3 5 (2e-15) = true := by decide +kernel

/-- The UFC simplex of dimension 2 or 3. -/
def ufcData (sd : ℕ) : CellData ℝ := if sd = 2 then ufcTriangle else ufcTetrahedron

/-- C44 (KMV): on the UFC simplices the rule of degree `k` is exact to the degree `kmvPrecision sd k`, at least `k`. -/
theorem kmv_within (sd k : ℕ) (h : (sd = 2 ∧ 1 ≤ k ∧ k ≤ 5) ∨ (sd = 3 ∧ 1 ≤ k ∧ k ≤ 3)) :
    ∃ R, kmvLumpScheme sd (ufcData sd) k = some R ∧ WithinOn R sd (kmvPrecision sd k) (2e-15) ∧
      (k = 1 ∨ (sd = 2 ∧ k = 2) → WithinOn R sd (kmvPrecision sd k) 0) ∧ k ≤ kmvPrecision sd k := by
  have e0 : ((2e-15 : ℚ) : ℝ) = 2e-15 := by norm_num
  have z0 : ((0 : ℚ) : ℝ) = 0 := by norm_num
  have zle : (0 : ℝ) ≤ 2e-15 := by norm_num
  refine ⟨(kmvR sd k).cast ℝ, ?_⟩
  rcases h with ⟨rfl, h1, h2⟩ | ⟨rfl, h1, h2⟩
  · interval_cases k
    · have := within_of_ok _ _ _ _ kmv21
      rw [z0] at this
      refine ⟨?_, this.mono le_rfl zle, fun _ => this, by decide⟩
      simp [kmvLumpScheme, ufcData, ufcTriangle, QRule.mk?, QRule.cast, kmvR, kv]
      norm_num
    · have := within_of_ok _ _ _ _ kmv22
      rw [z0] at this
      refine ⟨?_, this.mono le_rfl zle, fun _ => this, by decide⟩
      unfold kmvLumpScheme
      simp only [ufcData, if_true, Nat.cast_ofNat, mid, bary]
      simp [ufcTriangle, QRule.mk?, QRule.cast, kmvTri2Wts, kmvR, kv, kmids]
    · refine ⟨?_, e0 ▸ within_of_ok _ _ _ _ kmv23, by omega, by decide⟩
      simp [kmvLumpScheme, ufcData, ufcTriangle, QRule.mk?, QRule.cast, kmvTri3Wts, castPts, kmvTri3Pts, kmvR, kv]
    · refine ⟨?_, e0 ▸ within_of_ok _ _ _ _ kmv24, by omega, by decide⟩
      unfold kmvLumpScheme
      simp only [ufcData, if_true, Nat.cast_ofNat, mid]
      simp [ufcTriangle, QRule.mk?, QRule.cast, kmvTri4Wts, castPts, kmvTri4Pts, kmvR, kv, kmids]
    · refine ⟨?_, e0 ▸ within_of_ok _ _ _ _ kmv25, by omega, by decide⟩
      simp [kmvLumpScheme, ufcData, ufcTriangle, QRule.mk?, QRule.cast, kmvTri5Wts, castPts, kmvTri5Pts, kmvR, kv]
  · interval_cases k
    · have := within_of_ok _ _ _ _ kmv31
      rw [z0] at this
      refine ⟨?_, this.mono le_rfl zle, fun _ => this, by decide⟩
      simp [kmvLumpScheme, ufcData, ufcTetrahedron, QRule.mk?, QRule.cast, kmvR, kv]
      norm_num
    · refine ⟨?_, e0 ▸ within_of_ok _ _ _ _ kmv32, by omega, by decide⟩
      simp [kmvLumpScheme, ufcData, ufcTetrahedron, QRule.mk?, QRule.cast, kmvTet2Wts, castPts, kmvTet2Pts, kmvR, kv]
    · refine ⟨?_, e0 ▸ within_of_ok _ _ _ _ kmv33, by omega, by decide⟩
      simp [kmvLumpScheme, ufcData, ufcTetrahedron, QRule.mk?, QRule.cast, kmvTet3Wts, castPts, kmvTet3Pts, kmvR, kv]

/-- Other degrees and dimensions are refused (with whatever cell). -/
theorem kmv_rejects (sd : ℕ) (data : CellData ℝ) (k : ℤ)
    (h : ¬((sd = 2 ∧ 1 ≤ k ∧ k ≤ 5) ∨ (sd = 3 ∧ 1 ≤ k ∧ k ≤ 3))) : kmvLumpScheme sd data k = none := by
  unfold kmvLumpScheme
  dsimp only
  split <;> first | rfl | (exfalso; revert h; decide)

/-- The KMV rule is only right on the UFC cells: on the default triangle, of area 2, the weights still sum to 1/2. -/
theorem kmv_default_triangle_wrong : ∃ R, kmvLumpScheme 2 (defaultTriangle : CellData ℝ) 1 = some R ∧
    R.integrate (fun _ => 1) = 1 / 2 ∧
    ∫ _ in convexHull ℝ (Set.range (dvert 2)), (1 : ℝ) = 2 := by
  refine ⟨⟨(defaultTriangle : CellData ℝ).verts, List.replicate 3 (1 / 6)⟩, ?_, ?_, ?_⟩
  · simp [kmvLumpScheme, defaultTriangle, QRule.mk?]
    norm_num
  · norm_num [QRule.integrate, defaultTriangle, List.replicate]
  · rw [hull_dvert]
    have := ref_monomial 2 (fun _ => 0)
    norm_num at this
    simpa using this

end FIAT
