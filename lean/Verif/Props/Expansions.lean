/-
C15 (the expansion sets are hierarchical bases of P_n), C16 (they are orthonormal on the default simplices) and the
derivatives tabulated by the expansion sets (C17).
-/
import Verif.Lemmas.ExpPull
import Verif.Props.PolySet

namespace FIAT
open MvPolynomial MeasureTheory

/-- The first `dim P_k` of the polynomials form a basis of the polynomials of total degree at most `k`, for each `k ≤ n`. -/
def HierarchicalBasis (d n : ℕ) (φ : ℕ → MvPolynomial (Fin d) ℝ) : Prop :=
  ∀ k ≤ n, LinearIndependent ℝ (fun i : Fin ((k + d).choose d) => φ i) ∧
    Submodule.span ℝ (Set.range fun i : Fin ((k + d).choose d) => φ i) = restrictTotalDegree (Fin d) ℝ k

/-- The table of the expansion set on the simplex with vertices `v` is complete and lists the values of the polynomials
`φ 0, φ 1, ...`, whatever the coordinates of the points are (numbers, arrays, symbols). -/
def ExpTabulates (d n : ℕ) (v : Fin (d + 1) → Fin d → ℝ) (φ : ℕ → MvPolynomial (Fin d) ℝ) : Prop :=
  ∀ (A : Type) [CommRing A] [Algebra ℝ A] (pts : Fin d → A), expansionTable d (List.ofFn v) n pts =
    some ((List.range ((n + d).choose d)).map fun i => some (aeval pts (φ i)))

theorem line_row {A : Type} [CommRing A] [Algebra ℝ A] (M : Matrix (Fin 1) (Fin 1) ℝ) (b : Fin 1 → ℝ) (n : ℕ)
    (pts : Fin 1 → A) : lineTabulate M b n pts =
      (List.range ((n + 1).choose 1)).map fun i => some (aeval pts (lineBasis.pull M b i)) := by
  unfold lineTabulate
  rw [Nat.choose_one_right]
  refine List.map_congr_left fun k hk => ?_
  have hk' : k ≤ n := by simpa [Nat.lt_succ_iff] using hk
  congr 1
  rw [eval_jacobi_batch_eq 0 0 n (jacobiOK_of_gt _ _ (by norm_num) (by norm_num) n) _ k 0 hk' (by simp),
    eval_jacobi_eq 0 0 k (jacobiOK_of_gt _ _ (by norm_num) (by norm_num) k)]
  have h := lineBasis.pull_aeval M b pts k
  rw [show lineBasis.ix k = k from rfl] at h
  rw [h, show lineBasis.ψ k = lineRaw k * C (Real.sqrt (k + 1 / 2)) from rfl, map_mul, aeval_C, lineRaw, hJac_map,
    aeval_X, map_one, hJac_one 0 le_rfl]
  rfl

private theorem tri_row {A : Type} [CommRing A] [Algebra ℝ A] (M : Matrix (Fin 2) (Fin 2) ℝ) (b : Fin 2 → ℝ) (n : ℕ)
    (hn : n ≠ 0) (pts : Fin 2 → A) : triTabulate M b n pts =
      some ((List.range ((n + 2).choose 2)).map fun i => some (aeval pts (triBasis.pull M b i))) := by
  obtain ⟨r, h1, h2, h3⟩ := tri_steps M b n hn pts
  rw [h1]
  rw [choose_two', Nat.mul_div_cancel _ (by norm_num)] at h2
  congr 1
  refine slots_eq triBasis.ix triBasis.surj r _ h2 (fun i => aeval pts (triBasis.pull M b i)) fun i hi => ?_
  rw [triBasis.pull_aeval]
  rw [triBasis.lt] at hi
  refine (h3 i hi).trans ?_
  rw [show triBasis.ψ i = triPoly i * C (triScale i) from rfl, map_mul, aeval_C]
  simp only [triPoly, triRaw, map_mul, hJac_map, map_add, map_sub, aeval_X, algebraMap_eq, aeval_C, map_one]

private theorem tet_row {A : Type} [CommRing A] [Algebra ℝ A] (M : Matrix (Fin 3) (Fin 3) ℝ) (b : Fin 3 → ℝ) (n : ℕ)
    (hn : n ≠ 0) (pts : Fin 3 → A) : tetTabulate M b n pts =
      some ((List.range ((n + 3).choose 3)).map fun i => some (aeval pts (tetBasis.pull M b i))) := by
  obtain ⟨r, h1, h2, h3⟩ := tet_steps M b n hn pts
  rw [h1]
  rw [choose_three', Nat.mul_div_cancel _ (by norm_num)] at h2
  congr 1
  refine slots_eq tetBasis.ix tetBasis.surj r _ h2 (fun i => aeval pts (tetBasis.pull M b i)) fun i hi => ?_
  rw [tetBasis.pull_aeval]
  rw [tetBasis.lt] at hi
  refine (h3 i hi).trans ?_
  rw [show tetBasis.ψ i = tetPoly i * C (tetScale i) from rfl, map_mul, aeval_C]
  simp only [tetPoly, tetRaw, map_mul, hJac_map, map_add, map_sub, map_neg, aeval_X, algebraMap_eq, aeval_C, map_one]

private theorem table_1 {A : Type} [CommRing A] [Algebra ℝ A] (verts : List (Fin 1 → ℝ)) (n : ℕ) (pts : Fin 1 → A) :
    expansionTable 1 verts n pts = (makeAffineMapping verts (defaultVerts 1)).bind fun Mb => some (lineTabulate Mb.1 Mb.2 n pts) := rfl

private theorem table_2 {A : Type} [CommRing A] [Algebra ℝ A] (verts : List (Fin 2 → ℝ)) (n : ℕ) (pts : Fin 2 → A) :
    expansionTable 2 verts n pts = (makeAffineMapping verts (defaultVerts 2)).bind fun Mb => triTabulate Mb.1 Mb.2 n pts := rfl

private theorem table_3 {A : Type} [CommRing A] [Algebra ℝ A] (verts : List (Fin 3 → ℝ)) (n : ℕ) (pts : Fin 3 → A) :
    expansionTable 3 verts n pts = (makeAffineMapping verts (defaultVerts 3)).bind fun Mb => tetTabulate Mb.1 Mb.2 n pts := rfl

private theorem table_eq {d : ℕ} (v : Fin (d + 1) → Fin d → ℝ) (hv : AffineIndependent ℝ v) :
    ∃ M b, makeAffineMapping (List.ofFn v) (defaultVerts d) = some (M, b) ∧ ∀ i, M.mulVec (v i) + b = dvert d i := by
  obtain ⟨M, b, h1, h2, -⟩ := make_affine_mapping_spec v (dvert d) hv
  exact ⟨M, b, by rw [defaultVerts_eq]; exact h1, h2⟩

/-- C15/C16: on every nondegenerate interval, triangle or tetrahedron there is one infinite sequence of polynomials whose
first members are the tables of all degrees `n` (on triangles and tetrahedra: `n ≥ 1`); for every `k` the first `dim P_k`
of them form a basis of `P_k`; they are orthogonal on the simplex, with squared norm |simplex| / |default simplex|. -/
theorem expansion_table_spec (d : ℕ) (hd : d = 1 ∨ d = 2 ∨ d = 3) (v : Fin (d + 1) → Fin d → ℝ)
    (hv : AffineIndependent ℝ v) :
    ∃ φ : ℕ → MvPolynomial (Fin d) ℝ, (∀ n, (d = 1 ∨ n ≠ 0) → ExpTabulates d n v φ) ∧ (∀ n, HierarchicalBasis d n φ) ∧
      ∀ i j, ∫ x in convexHull ℝ (Set.range v), eval x (φ i) * eval x (φ j) =
        if i = j then |(edgeMatrix v).det| / 2 ^ d else 0 := by
  obtain ⟨M, b, h1, h2⟩ := table_eq v hv
  rcases hd with rfl | rfl | rfl
  · refine ⟨lineBasis.pull M b, fun n _ => ?_, fun n k _ => lineBasis.pull_basis v M b hv h2 k,
      (lineBasis.pull_ortho v M b hv h2).2⟩
    intro A _ _ pts
    rw [table_1, h1, Option.bind_some, line_row]
  · refine ⟨triBasis.pull M b, fun n hn => ?_, fun n k _ => triBasis.pull_basis v M b hv h2 k,
      (triBasis.pull_ortho v M b hv h2).2⟩
    intro A _ _ pts
    rw [table_2, h1, Option.bind_some, tri_row M b n (hn.resolve_left (by norm_num))]
  · refine ⟨tetBasis.pull M b, fun n hn => ?_, fun n k _ => tetBasis.pull_basis v M b hv h2 k,
      (tetBasis.pull_ortho v M b hv h2).2⟩
    intro A _ _ pts
    rw [table_3, h1, Option.bind_some, tet_row M b n (hn.resolve_left (by norm_num))]

/-- On triangles and tetrahedra the table of degree 0 is the constant 1, which is not normalised. -/
theorem expansion_table_zero (d : ℕ) (hd : d = 2 ∨ d = 3) (v : Fin (d + 1) → Fin d → ℝ) (hv : AffineIndependent ℝ v) :
    ExpTabulates d 0 v fun _ => 1 := by
  obtain ⟨M, b, h1, h2⟩ := table_eq v hv
  intro A _ _ pts
  have hl : ((List.range ((0 + d).choose d)).map fun _ => some (aeval pts (1 : MvPolynomial (Fin d) ℝ))) = [some (1 : A)] := by
    simp
  rw [hl]
  rcases hd with rfl | rfl
  · rw [table_2, h1, Option.bind_some]
    simp [triTabulate, Slots.wr]
  · rw [table_3, h1, Option.bind_some]
    simp [tetTabulate, Slots.wr]

/-- C15: for every degree and every nondegenerate simplex the table is complete, its entries are the values of
polynomials, and these form a hierarchical basis of P_n. -/
theorem expansion_sets_hierarchical (d : ℕ) (hd : d = 1 ∨ d = 2 ∨ d = 3) (v : Fin (d + 1) → Fin d → ℝ)
    (hv : AffineIndependent ℝ v) (n : ℕ) :
    ∃ φ : ℕ → MvPolynomial (Fin d) ℝ, ExpTabulates d n v φ ∧ HierarchicalBasis d n φ := by
  by_cases h : d = 1 ∨ n ≠ 0
  · obtain ⟨φ, h1, h2, -⟩ := expansion_table_spec d hd v hv
    exact ⟨φ, h1 n h, h2 n⟩
  · have h' : d ≠ 1 ∧ n = 0 := by tauto
    obtain ⟨h3, rfl⟩ := h'
    refine ⟨fun _ => 1, expansion_table_zero d (hd.resolve_left h3) v hv, ?_⟩
    intro k hk
    obtain rfl : k = 0 := by omega
    have hi : LinearIndependent ℝ (fun _ : Fin ((0 + d).choose d) => (1 : MvPolynomial (Fin d) ℝ)) := by
      have : Subsingleton (Fin ((0 + d).choose d)) := by rw [zero_add, Nat.choose_self]; infer_instance
      rw [linearIndependent_subsingleton_index_iff]
      intro _; exact one_ne_zero
    exact ⟨hi, basis_of_independent 0 _ hi fun _ => by simp⟩

/-- Specification of C16: any two entries of the table of degree `n` on the default simplex, as functions of the point, have
integral δ_ij. -/
def OrthonormalTable (d n : ℕ) : Prop :=
  ∀ i j, i < (n + d).choose d → j < (n + d).choose d → ∃ f g : (Fin d → ℝ) → ℝ,
    (∀ x, ∃ t, expansionTable d (defaultVerts d) n x = some t ∧ t[i]? = some (some (f x)) ∧ t[j]? = some (some (g x))) ∧
    ∫ x in convexHull ℝ {p | p ∈ (defaultVerts d : List (Fin d → ℝ))}, f x * g x = if i = j then 1 else 0

private theorem default_hull (d : ℕ) : convexHull ℝ {p | p ∈ (defaultVerts d : List (Fin d → ℝ))} =
    convexHull ℝ (Set.range (dvert d)) := by
  congr 1
  ext p
  rw [defaultVerts_eq]
  change p ∈ List.ofFn (dvert d) ↔ _
  rw [List.mem_ofFn]; rfl

/-- C16 for the line in every degree and for the triangle and the tetrahedron in every degree at least 1 (missing: degree 0
on the triangle and the tetrahedron, where the claim is false, see `expansion_degree_zero_not_orthonormal`). -/
theorem expansion_sets_orthonormal_partial (d : ℕ) (hd : d = 1 ∨ d = 2 ∨ d = 3) (n : ℕ) (hn : d = 1 ∨ n ≠ 0) :
    OrthonormalTable d n := by
  obtain ⟨φ, h1, -, h3⟩ := expansion_table_spec d hd (dvert d) (dvert_independent d)
  intro i j hi hj
  refine ⟨fun x => eval x (φ i), fun x => eval x (φ j), fun x => ⟨_, h1 n hn ℝ x, ?_, ?_⟩, ?_⟩
  · simp [List.getElem?_range hi, coe_aeval_eq_eval]
  · simp [List.getElem?_range hj, coe_aeval_eq_eval]
  · rw [default_hull, h3, det_of_map (dvert d) 1 0 (by intro i; simp)]
    simp

private theorem not_ortho (d : ℕ) (hd : d = 2 ∨ d = 3) (c : ℝ) (hc : c ≠ 1) (h : ∫ _ in refSimplex d, (1 : ℝ) * 1 = c) :
    ¬ OrthonormalTable d 0 := by
  intro H
  obtain ⟨f, g, h1, h2⟩ := H 0 0 (by simp) (by simp)
  have h3 : ∀ x, f x = 1 ∧ g x = 1 := by
    intro x
    obtain ⟨t, h4, h5, h6⟩ := h1 x
    have h7 := expansion_table_zero d hd (dvert d) (dvert_independent d) ℝ x
    rw [← defaultVerts_eq, h4] at h7
    simp only [Option.some.injEq] at h7
    rw [h7] at h5 h6
    simp at h5 h6
    exact ⟨h5.symm, h6.symm⟩
  simp only [h3] at h2
  rw [default_hull, hull_dvert, h] at h2
  exact hc (by simpa using h2)

/-- C16 fails in degree 0: the only entry is the constant 1, whose squared norm is the area 2 of the default triangle, and
the volume 4/3 of the default tetrahedron. -/
theorem expansion_degree_zero_not_orthonormal : ¬ OrthonormalTable 2 0 ∧ ¬ OrthonormalTable 3 0 := by
  constructor
  · refine not_ortho 2 (by norm_num) 2 (by norm_num) ?_
    have h := tri_orth (0, 0) (0, 0)
    simp only [triPoly_eval, triRaw, hJac, mul_one, if_true] at h
    simp only [mul_one]
    rw [h]; norm_num
  · refine not_ortho 3 (by norm_num) (4 / 3) (by norm_num) ?_
    have h := tet_orth (0, 0, 0) (0, 0, 0)
    simp only [tetPoly_eval, tetRaw, hJac, mul_one, if_true] at h
    simp only [mul_one]
    rw [h]; norm_num

/-- The hypotheses are met: the default simplices, and a reversed triangle. -/
example : AffineIndependent ℝ (dvert 3) := dvert_independent 3

example : (2 = 1 ∨ 2 = 2 ∨ 2 = 3) ∧ OrthonormalTable 2 1 :=
  ⟨by norm_num, expansion_sets_orthonormal_partial 2 (by norm_num) 1 (by norm_num)⟩

example : OrthonormalTable 1 0 := expansion_sets_orthonormal_partial 1 (by norm_num) 0 (by norm_num)

end FIAT
