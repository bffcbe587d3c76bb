/-
Model of the generic normals and volumes of simplices: `linalg_subspace_intersection` (reference_element.py:74-103),
`Simplex.compute_normal` (:230-298), `volume` (:993-1014) and the functions built on them (:370-390).

`numpy.linalg.svd` and `numpy.linalg.qr` are parameters; their contract is `LinAlgOK` (Verif/Lemmas/LinAlgSpec.lean).
-/
import Verif.Model.VectorElements

namespace FIAT
section

/-- `numpy.linalg.svd(A)` (full matrices) and `numpy.linalg.qr(A)` (reduced). -/
structure LinAlg where
  svd : (n m : ℕ) → Matrix (Fin n) (Fin m) ℝ → Matrix (Fin n) (Fin n) ℝ × List ℝ × Matrix (Fin m) (Fin m) ℝ
  qr : (m p : ℕ) → Matrix (Fin m) (Fin p) ℝ → Matrix (Fin m) (Fin (min m p)) ℝ × Matrix (Fin (min m p)) (Fin p) ℝ

/-- `A[:, :k]`. -/
def firstCols {n m : ℕ} (A : Matrix (Fin n) (Fin m) ℝ) (k : ℕ) : Matrix (Fin n) (Fin (min k m)) ℝ :=
  fun i j => A i ⟨j, lt_of_lt_of_le j.2 (min_le_right _ _)⟩

/-- `A[k:, :]`. -/
def lastRows {n m : ℕ} (A : Matrix (Fin n) (Fin m) ℝ) (k : ℕ) : Matrix (Fin (n - k)) (Fin m) ℝ :=
  fun i j => A ⟨k + i, by omega⟩ j

/-- `len([si for si in s if si > 1.e-10])`, reference_element.py:249, :267. -/
noncomputable def rankOf (s : List ℝ) : ℕ := (s.filter fun x => decide (1e-10 < x)).length

/-- `linalg_subspace_intersection(A, B)`, reference_element.py:74-103: the columns and their number; `none`: "Dimension error". -/
noncomputable def subspaceIntersection (L : LinAlg) {m p m' q : ℕ} (A : Matrix (Fin m) (Fin p) ℝ) (B : Matrix (Fin m') (Fin q) ℝ) :
    Option (Σ r : ℕ, Matrix (Fin m) (Fin r) ℝ) :=
  if h : m = m' then
    let qa := (L.qr m p A).1
    let qb := (L.qr m q (B.submatrix (Fin.cast h) id)).1
    let C := qa.transpose * qb
    let ycz := L.svd (min m p) (min m q) C
    let U := qa * ycz.1
    let rank_c := (ycz.2.1.filter fun s => decide (|1.0 - s| < 1e-10)).length
    some ⟨_, firstCols U rank_c⟩
  else none

variable {D : ℕ}

/-- `numpy.array([vs[i] - vs[0] for i in range(1, len(vs))])`, reference_element.py:245-246, :262-263. -/
def edgeRows (vs : List (Fin D → ℝ)) : Matrix (Fin (vs.length - 1)) (Fin D) ℝ :=
  fun i j => vs.getD ((i : ℕ) + 1) 0 j - vs.getD 0 0 j

/-- The sign of the normal, reference_element.py:282-298: `t` are the vertices of the facet, `cell` those of the cell; `verts_facet.pop()`
is any element of the set: `pop`. -/
noncomputable def orientNormal (pop : List ℕ → ℕ) (s : SimplexCell (Fin D → ℝ)) (t cell : List ℕ) (nfoo : Fin D → ℝ) : Option (Fin D → ℝ) :=
  match (cell.filter fun (a : ℕ) => decide (a ∉ t)).dedup with
  | [off] => do
    let von ← s.verts[pop t]?
    let voff ← s.verts[off]?
    if 0 < ∑ i, (von i - voff i) * nfoo i then some nfoo else some (-nfoo)
  | _ => none

/-- `Simplex.compute_normal(facet_i)`, reference_element.py:230-298; the branch for `LINE` is taken by dimension. -/
noncomputable def computeNormal (L : LinAlg) (pop : List ℕ → ℕ) (s : SimplexCell (Fin D → ℝ)) (facet : ℕ) : Option (Fin D → ℝ) :=
  if s.sd = 1 then do
    let es ← Dict.get? s.topo 0
    let t ← Dict.get? es facet
    match t with
    | [v_i] => do
      let other ← [1, 0][v_i]?
      let a ← s.verts[v_i]?
      let b ← s.verts[other]?
      some fun i => (a i - b i) / norm2 (a - b)
    | _ => none
  else do
    let usv := L.svd _ _ (edgeRows s.verts)
    let spanu := firstCols usv.1 (rankOf usv.2.1)
    let es ← Dict.get? s.topo (s.sd - 1)
    let t ← Dict.get? es facet
    let vcf ← verticesOf s t
    let f := L.svd _ _ (edgeRows vcf)
    let facet_normal_space := (lastRows f.2.2 (rankOf f.2.1)).transpose
    let foo ← subspaceIntersection L facet_normal_space spanu
    if h : foo.1 = 1 then do
      let nfoo := fun i => foo.2 i ⟨0, by omega⟩
      let cells ← Dict.get? s.topo s.sd
      let cell ← Dict.get? cells 0
      orientNormal pop s t cell nfoo
    else none

/-- `volume(verts)`, reference_element.py:993-1014; `ufc_simplex` exists up to dimension 3. -/
noncomputable def volume (L : LinAlg) (verts : List (Fin D → ℝ)) : Option ℝ :=
  if verts.length = 0 ∨ 4 < verts.length then none
  else do
    let Ab ← makeAffineMapping (List.ofFn (ufcVerts ℝ (verts.length - 1))) verts
    some (volumeOf (L.svd _ _ Ab.1).2.1 (verts.length - 1))

/-- `Simplex.volume_of_subcomplex(dim, facet_no)`, reference_element.py:375-377. -/
noncomputable def volumeOfSubcomplex (L : LinAlg) (s : SimplexCell (Fin D → ℝ)) (dim facet : ℕ) : Option ℝ := do
  let vs ← entityVerts s dim facet
  volume L vs

/-- `Simplex.compute_scaled_normal(facet_i)`, reference_element.py:379-384. -/
noncomputable def computeScaledNormal (L : LinAlg) (pop : List ℕ → ℕ) (s : SimplexCell (Fin D → ℝ)) (facet : ℕ) : Option (Fin D → ℝ) := do
  let v ← volumeOfSubcomplex L s (s.sd - 1) facet
  let n ← computeNormal L pop s facet
  some (v • n)

/-- `Simplex.compute_reference_normal(facet_dim, facet_i)`, reference_element.py:386-390; the norm of `Fin D → ℝ` is the maximum norm. -/
noncomputable def computeReferenceNormal (L : LinAlg) (pop : List ℕ → ℕ) (s : SimplexCell (Fin D → ℝ)) (facet_dim facet : ℕ) :
    Option (Fin D → ℝ) :=
  if facet_dim + 1 = s.sd then do
    let n ← computeNormal L pop s facet
    some fun i => n i / ‖n‖
  else none

end
end FIAT
