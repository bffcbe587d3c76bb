/-
C68: meshes the conformity theorems apply to: two UFC triangles that share an edge, and two UFC tetrahedra that share a face.
-/
import Verif.Props.ConformDiv
import Verif.Props.ConformUfc
import Verif.Props.ConformCurl2
import Verif.Props.ConformC0
import Verif.Props.NedelecExample

namespace FIAT
open MvPolynomial

def sortedB (topo : Topology ℕ) : Bool := topo.all fun p => p.2.all fun q => decide (q.2.Pairwise (· < ·))

theorem sorted_of_bool {topo : Topology ℕ} (h : sortedB topo = true) (d e : ℕ) (t : List ℕ) (he : HasEntity topo d e t) :
    t.Pairwise (· < ·) := by
  obtain ⟨es, h1, h2⟩ := he.mem
  unfold sortedB at h
  rw [List.all_eq_true] at h
  have h3 := h _ h1
  rw [List.all_eq_true] at h3
  exact of_decide_eq_true (h3 _ h2)

/-- UFC cells whose vertices are numbered in increasing order are ordered as `InMesh` demands. -/
theorem ordered_of_increasing {topo : Topology ℕ} (h : sortedB topo = true) {g : ℕ → ℕ} (hg : StrictMono g) (d e : ℕ) (t : List ℕ)
    (he : HasEntity topo d e t) : (t.map g).Pairwise (· < ·) := by
  rw [List.pairwise_map]
  exact (sorted_of_bool h d e t he).imp fun hab => hg hab

noncomputable abbrev tri : SimplexCell (Fin 2 → ℝ) := (ufcTriangle : CellData ℝ).toSimplex 2
noncomputable abbrev tet : SimplexCell (Fin 3 → ℝ) := (ufcTetrahedron : CellData ℝ).toSimplex 3

theorem tri_sorted : sortedB tri.topo = true := by
  have e : sortedB ((ufcTriangle : CellData ℤ).toSimplex 2).topo = true := by decide +kernel
  exact e

theorem tet_sorted : sortedB tet.topo = true := by
  have e : sortedB ((ufcTetrahedron : CellData ℤ).toSimplex 3).topo = true := by decide +kernel
  exact e

/-- The vertices of the unit square. -/
def square : ℕ → Fin 2 → ℝ := fun i => match i with | 0 => ![0, 0] | 1 => ![1, 0] | 2 => ![0, 1] | _ => ![1, 1]

theorem square_left : InMesh square tri 1 0 id := by
  refine ⟨by simp, fun a ha => ?_, ordered_of_increasing tri_sorted strictMono_id⟩
  interval_cases a <;> funext i <;> fin_cases i <;>
    simp [cellMap, square, SimplexCell.v, CellData.toSimplex, ufcTriangle]

theorem square_right : InMesh square tri !![-1, 0; 1, 1] ![1, 0] (· + 1) := by
  refine ⟨by norm_num [Matrix.det_fin_two], fun a ha => ?_, ordered_of_increasing tri_sorted fun a b h => Nat.add_lt_add_right h 1⟩
  interval_cases a <;> funext i <;> fin_cases i <;>
    simp [cellMap, square, SimplexCell.v, CellData.toSimplex, ufcTriangle, Matrix.mulVec, dotProduct, Fin.sum_univ_two]

theorem square_edges : HasEntity tri.topo 1 0 [1, 2] ∧ HasEntity tri.topo 1 2 [0, 1] ∧ SharedEntity id [1, 2] (· + 1) [0, 1] :=
  ⟨⟨_, rfl, rfl⟩, ⟨_, rfl, rfl⟩, fun i => by simp⟩

/-- The vertices of two tetrahedra that share a face. -/
def bipyramid : ℕ → Fin 3 → ℝ := fun i => match i with | 0 => ![0, 0, 0] | 1 => ![1, 0, 0] | 2 => ![0, 1, 0] | 3 => ![0, 0, 1] | _ => ![1, 1, 1]

theorem bipyramid_lower : InMesh bipyramid tet 1 0 id := by
  refine ⟨by simp, fun a ha => ?_, ordered_of_increasing tet_sorted strictMono_id⟩
  interval_cases a <;> funext i <;> fin_cases i <;>
    simp [cellMap, bipyramid, SimplexCell.v, CellData.toSimplex, ufcTetrahedron]

theorem bipyramid_upper : InMesh bipyramid tet !![-1, -1, 0; 1, 0, 1; 0, 1, 1] ![1, 0, 0] (· + 1) := by
  refine ⟨?_, fun a ha => ?_, ordered_of_increasing tet_sorted fun a b h => Nat.add_lt_add_right h 1⟩
  · rw [Matrix.det_fin_three]
    simp
  interval_cases a <;> funext i <;> fin_cases i <;>
    simp [cellMap, bipyramid, SimplexCell.v, CellData.toSimplex, ufcTetrahedron, Matrix.mulVec, dotProduct, Fin.sum_univ_three]

theorem bipyramid_faces : HasEntity tet.topo 2 0 [1, 2, 3] ∧ HasEntity tet.topo 2 3 [0, 1, 2] ∧
    SharedEntity id [1, 2, 3] (· + 1) [0, 1, 2] :=
  ⟨⟨_, rfl, rfl⟩, ⟨_, rfl, rfl⟩, fun i => by simp⟩

/-- `volume` returns the length of the edges of the UFC triangle: here the one singular value of each edge is given. -/
noncomputable def triLengths : ℕ → List ℝ := fun e => if e = 0 then [Real.sqrt 2] else [1]

theorem triLengths_spec : FacetVolumes tri triLengths := by
  intro e τ h
  have h1 : volumeOf (triLengths e) (2 - 1) = if e = 0 then Real.sqrt 2 else 1 := by
    unfold volumeOf triLengths
    split_ifs
    · have : (1e-10 : ℝ) < Real.sqrt 2 := lt_trans (by norm_num) (Real.lt_sqrt (by norm_num : (0 : ℝ) ≤ 1) |>.2 (by norm_num))
      norm_num at this
      norm_num [this]
    · norm_num
  have h2 : HasEntity tri.topo 1 e (List.ofFn τ) := h
  obtain ⟨es, q1, q2⟩ := h2
  have q3 : some es = some [(0, [1, 2]), (1, [0, 2]), (2, [0, 1])] := q1.symm
  obtain rfl := Option.some.inj q3
  have q4 := Dict.mem_of_get? q2
  simp only [List.mem_cons, Prod.mk.injEq, List.not_mem_nil, or_false] at q4
  have hτ : List.ofFn τ = [τ 0, τ 1] := by simp [List.ofFn_succ]
  rw [hτ] at q4
  rw [h1]
  simp only [List.cons.injEq, and_true] at q4
  rcases q4 with ⟨rfl, a, c⟩ | ⟨rfl, a, c⟩ | ⟨rfl, a, c⟩
  all_goals
    refine Eq.trans ?_ (Matrix.det_fin_one (fun i k : Fin 1 => ∑ j, (tri.v (τ i.succ) j - tri.v (τ 0) j) * (tri.v (τ k.succ) j - tri.v (τ 0) j))).symm
    simp [a, c, Fin.sum_univ_two, SimplexCell.v, CellData.toSimplex, ufcTriangle]
    try norm_num

theorem tri_oriented : 0 < orientation fun i : Fin (2 + 1) => tri.v i := by
  norm_num [orientation, Matrix.det_fin_two, SimplexCell.v, CellData.toSimplex, ufcTriangle]

theorem tet_oriented : 0 < orientation fun i : Fin (3 + 1) => tet.v i := by
  have hverts : (fun i : Fin (3 + 1) => tet.v i) = ufcVerts ℝ 3 := by
    funext i l
    fin_cases i <;> fin_cases l <;> rfl
  rw [hverts]
  unfold orientation
  have : (Matrix.of fun i j : Fin 3 => ufcVerts ℝ 3 j.succ i - ufcVerts ℝ 3 0 i) = 1 := by
    ext i j
    simp [ufcVerts, Matrix.one_apply]
  rw [this, Matrix.det_one]
  exact one_pos

/-- Continuity of Lagrange elements of any degree over the square and over the two tetrahedra. -/
example (k : ℕ) (hk : 1 ≤ k) {nodes ids} (h : lagrangeDual ℝ tri k = some (nodes, ids)) {u u' : MvPolynomial (Fin 2) ℝ}
    (hu : u.totalDegree ≤ k) (hu' : u'.totalDegree ≤ k) := lagrange_conforming (proper_ufcTriangle (K := ℝ)) proper_ufcTriangle k hk h h
  square_left square_right (by norm_num) square_edges.1 square_edges.2.1 square_edges.2.2 hu hu'

example (k : ℕ) (hk : 1 ≤ k) {nodes ids} (h : lagrangeDual ℝ tet k = some (nodes, ids)) {u u' : MvPolynomial (Fin 3) ℝ}
    (hu : u.totalDegree ≤ k) (hu' : u'.totalDegree ≤ k) := lagrange_conforming (proper_ufcTetrahedron (K := ℝ)) proper_ufcTetrahedron k hk h h
  bipyramid_lower bipyramid_upper (by norm_num) bipyramid_faces.1 bipyramid_faces.2.1 bipyramid_faces.2.2 hu hu'

/-- C68: with the scaled normals of the UFC triangle, Raviart-Thomas functions of the two triangles of the square have the same
normal component on the diagonal if and only if the dofs of the diagonal are equal. -/
theorem raviart_thomas_square {gj : ℕ → ℕ → List ℝ} (hgj : NodesOK gj) (k : ℕ) (v : DualVariant) (hv : ∀ q, v = .integral q → k + 1 ≤ q)
    {nodes : List (Functional ℝ (Fin 2 → ℝ))} {ids : EntityIds ℕ}
    (hdual : rtDual gj tri (ufcScaledNormal tri triLengths) k v = some (nodes, ids)) {w w' : Fin 2 → MvPolynomial (Fin 2) ℝ}
    (hw : IsRT k w) (hw' : IsRT k w') :
    DofsMatch 1 nodes ids (fun a => a.onField (fieldOf w')) nodes ids (fun a => a.onField (fieldOf w)) 1 2 0 ↔
      ∀ x x', OnEntity tri [1, 2] x → OnEntity tri [0, 1] x' → cellMap 1 0 x = cellMap !![-1, 0; 1, 1] ![1, 0] x' →
        ∀ N, (∀ a ∈ [1, 2], ∀ c ∈ [1, 2], N ⬝ᵥ (square (id a) - square (id c)) = 0) →
          N ⬝ᵥ contravariant 1 w x = N ⬝ᵥ contravariant !![-1, 0; 1, 1] w' x' := by
  obtain ⟨n, n', h1, h2, h3⟩ := ufc_scaled_normals_match (Or.inl rfl) (proper_ufcTriangle (K := ℝ)) proper_ufcTriangle triLengths_spec
    triLengths_spec square_left square_right square_edges.1 square_edges.2.1 square_edges.2.2
  exact raviart_thomas_conforming (Or.inl rfl) (proper_ufcTriangle (K := ℝ)) proper_ufcTriangle numbered_ufcTriangle numbered_ufcTriangle
    tri_oriented tri_oriented hgj (ufc_triangle_normals _ proper_ufcTriangle _) (ufc_triangle_normals _ proper_ufcTriangle _) k v hv hdual hdual
    square_left square_right square_edges.1 square_edges.2.1 square_edges.2.2 h1 h2 (by rw [h3, one_smul]) hw hw'

/-- The dual sets of `raviart_thomas_square` and `bdm_conforming` exist, for every degree. -/
example {gj : ℕ → ℕ → List ℝ} (hgj : NodesOK gj) (k : ℕ) : ∃ nodes ids, rtDual gj tri (ufcScaledNormal tri triLengths) k .point = some (nodes, ids) := by
  obtain ⟨nodes, ids, h, -⟩ := rt_dual_spec (Or.inl rfl) tri (proper_ufcTriangle (K := ℝ)) numbered_ufcTriangle tri_oriented hgj
    (ufc_triangle_normals _ proper_ufcTriangle triLengths) k .point (fun q h => by cases h)
  exact ⟨nodes, ids, h⟩

example {gj : ℕ → ℕ → List ℝ} (hgj : NodesOK gj) (T : DigitTable) {nodes ids}
    (h : bdmDual gj someSvdFun T tri (ufcScaledNormal tri triLengths) 1 .point = some (nodes, ids)) {w w' : Fin 2 → MvPolynomial (Fin 2) ℝ}
    (hw : FullDeg 1 w) (hw' : FullDeg 1 w') {n n' : Fin 2 → ℝ} (h1 : ufcScaledNormal tri triLengths 0 = some n)
    (h2 : ufcScaledNormal tri triLengths 2 = some n') {σ : ℝ} (h3 : physNormal !![-1, 0; 1, 1] n' = σ • physNormal 1 n) :=
  bdm_conforming (Or.inl rfl) (proper_ufcTriangle (K := ℝ)) proper_ufcTriangle numbered_ufcTriangle numbered_ufcTriangle
    tri_oriented tri_oriented hgj (ufc_triangle_normals _ proper_ufcTriangle _) (ufc_triangle_normals _ proper_ufcTriangle _) 1 le_rfl
    someSvdFun T (fun h => absurd h (by norm_num)) (fun h => absurd h (by norm_num)) .point (fun q h => by cases h) h h
    square_left square_right square_edges.1 square_edges.2.1 square_edges.2.2 h1 h2 h3 hw hw'

/-- Tangential continuity over the square (edges) and over the two tetrahedra (faces). -/
example {gj : ℕ → ℕ → List ℝ} (hgj : NodesOK gj) (k : ℕ) {nodes ids} (h : nedDual gj k .point 2 tri = some (nodes, ids))
    {w w' : Fin 2 → MvPolynomial (Fin 2) ℝ} (hw : IsNed k w) (hw' : IsNed k w') :=
  nedelec_conforming (Or.inl rfl) (proper_ufcTriangle (K := ℝ)) proper_ufcTriangle numbered_ufcTriangle numbered_ufcTriangle tri_oriented
    tri_oriented hgj k .point (fun q h => by cases h) h h square_left square_right le_rfl (by norm_num) square_edges.1 square_edges.2.1
    square_edges.2.2 hw hw'

example {gj : ℕ → ℕ → List ℝ} (hgj : NodesOK gj) (k : ℕ) {nodes ids} (h : nedDual gj k .point 3 tet = some (nodes, ids))
    {w w' : Fin 3 → MvPolynomial (Fin 3) ℝ} (hw : IsNed k w) (hw' : IsNed k w') :=
  nedelec_conforming (Or.inr rfl) (proper_ufcTetrahedron (K := ℝ)) proper_ufcTetrahedron numbered_ufcTetrahedron numbered_ufcTetrahedron
    tet_oriented tet_oriented hgj k .point (fun q h => by cases h) h h bipyramid_lower bipyramid_upper (by norm_num) (by norm_num)
    bipyramid_faces.1 bipyramid_faces.2.1 bipyramid_faces.2.2 hw hw'

example {gj : ℕ → ℕ → List ℝ} (hgj : NodesOK gj) (k : ℕ) :
    (∃ nodes ids, nedDual gj k .point 2 tri = some (nodes, ids)) ∧ ∃ nodes ids, nedDual gj k .point 3 tet = some (nodes, ids) := by
  obtain ⟨nodes, ids, h, -⟩ := ned_dual_spec (Or.inl rfl) tri (proper_ufcTriangle (K := ℝ)) numbered_ufcTriangle tri_oriented hgj k .point
    (fun q h => by cases h)
  obtain ⟨nodes', ids', h', -⟩ := ned_dual_spec (Or.inr rfl) tet (proper_ufcTetrahedron (K := ℝ)) numbered_ufcTetrahedron tet_oriented hgj k
    .point (fun q h => by cases h)
  exact ⟨⟨nodes, ids, h⟩, nodes', ids', h'⟩

/-- Second-kind elements of degree 1 on both meshes. -/
example {gj : ℕ → ℕ → List ℝ} (hgj : NodesOK gj) (T : DigitTable) {nodes ids}
    (h : n2Dual2 gj someSvdFun T tri (ufcScaledNormal tri triLengths) 1 .point = some (nodes, ids)) {w w' : Fin 2 → MvPolynomial (Fin 2) ℝ}
    (hw : FullDeg 1 w) (hw' : FullDeg 1 w') :=
  nedelec2_triangle_conforming (proper_ufcTriangle (K := ℝ)) proper_ufcTriangle numbered_ufcTriangle numbered_ufcTriangle
    tri_oriented tri_oriented hgj (ufc_triangle_normals _ proper_ufcTriangle _) (ufc_triangle_normals _ proper_ufcTriangle _) 1 le_rfl
    someSvdFun (fun h => absurd h (by norm_num)) (fun h => absurd h (by norm_num)) T .point (fun q h => by cases h) h h
    square_left square_right square_edges.1 square_edges.2.1 square_edges.2.2 hw hw'

example {gj : ℕ → ℕ → List ℝ} (hgj : NodesOK gj) (T : DigitTable) (sv : ℕ → List ℝ) {nodes ids}
    (h : n2Dual3 gj someSvdFun T tet true (ufcScaledNormal tet sv) (ufcScaledNormal tri triLengths) 1 .point = some (nodes, ids))
    {w w' : Fin 3 → MvPolynomial (Fin 3) ℝ} (hw : FullDeg 1 w) (hw' : FullDeg 1 w') :=
  nedelec2_tetrahedron_conforming (proper_ufcTetrahedron (K := ℝ)) proper_ufcTetrahedron numbered_ufcTetrahedron numbered_ufcTetrahedron
    tet_oriented tet_oriented hgj (ufc_tetrahedron_normals _ proper_ufcTetrahedron _) (ufc_tetrahedron_normals _ proper_ufcTetrahedron _)
    (ufc_triangle_normals _ proper_ufcTriangle _) 1 le_rfl true true (fun h => absurd h (by norm_num)) (fun h => absurd h (by norm_num))
    someSvdFun (fun h => absurd h (by norm_num)) (fun h => absurd h (by norm_num)) (fun h => absurd h (by norm_num)) T .point
    (fun q h => by cases h) h h bipyramid_lower bipyramid_upper (by norm_num) (by norm_num)
    bipyramid_faces.1 bipyramid_faces.2.1 bipyramid_faces.2.2 hw hw'

end FIAT
