/-
Model of `NodalEnrichedElement` (FIAT/nodal_enriched.py), on one cell.
-/
import Verif.Model.Bubble
import Verif.Model.Combine

namespace FIAT
section
variable {D : ℕ}

/-- An element as `NodalEnrichedElement` sees it: `get_nodal_basis().get_embedded_degree()`, `space_dimension()`, the nodal basis
(a `PolynomialSet`), `dual_basis()`, `entity_dofs()`. -/
structure NodalPart (D : ℕ) (Cp : Type) where
  degree : ℕ
  dim : ℕ
  el : PolySet ℝ (Fin D → ℝ) ((degree + D).choose D) dim Cp
  nodes : List (Functional ℝ (Fin D → ℝ))
  ids : EntityIds ℕ

/-- `get_num_members` of the expansion set: `coeffs.shape[-1]`, and the size of the derivative matrices. -/
def NodalPart.expDim {Cp : Type} (p : NodalPart D Cp) : ℕ := (p.degree + D).choose D

/-- `e.get_coeffs()` as an array with natural number indices. -/
def NodalPart.rows {Cp : Type} (p : NodalPart D Cp) : ℕ → Cp → ℕ → ℝ := fun r c k =>
  if h : r < p.dim ∧ k < (p.degree + D).choose D then p.el.coeffs ⟨r, h.1⟩ c ⟨k, h.2⟩ else 0

/-- A square array with natural number indices. -/
def natMat {n : ℕ} (M : Matrix (Fin n) (Fin n) ℝ) : ℕ → ℕ → ℝ := fun i j =>
  if h : i < n ∧ j < n then M ⟨i, h.1⟩ ⟨j, h.2⟩ else 0

/-- `np.allclose(a, b[sl])` where `sl` is the leading `n x n` block, nodal_enriched.py:114-116 (numpy's default tolerances). -/
def BlockClose (n : ℕ) (a b : ℕ → ℕ → ℝ) : Prop := ∀ i < n, ∀ j < n, |a i j - b i j| ≤ 1e-8 + 1e-5 * |b i j|

/-- `max((dmats[0].shape, args) for args, dmats in enumerate(dmatss))`, nodal_enriched.py:108: the last of the elements with the largest
derivative matrices; `none`: `max()` of an empty sequence. -/
def lastLargest {Cp : Type} : List (NodalPart D Cp) → Option (NodalPart D Cp)
  | [] => none
  | p :: ps => match lastLargest ps with
    | none => some p
    | some q => if q.expDim < p.expDim then some p else some q

open Classical in
/-- `_merge_dmats(dmatss)`, nodal_enriched.py:107-118: the matrices of the last of the largest elements; `none`: the assertion that the
matrices of all elements are leading blocks of these, up to `allclose`, fails, or an element has too few matrices (`IndexError`).  The
matrices are square by construction (`D ≥ 1`; on a point `dmats[0]` is an `IndexError`). -/
noncomputable def mergeDmats {Cp : Type} (ps : List (NodalPart D Cp)) (best : NodalPart D Cp) :
    Option (List (Matrix (Fin ((best.degree + D).choose D)) (Fin ((best.degree + D).choose D)) ℝ)) :=
  if ∀ (i : ℕ) B, best.el.dmats[i]? = some B → ∀ q ∈ ps, ∃ A, q.el.dmats[i]? = some A ∧ BlockClose q.expDim (natMat A) (natMat B) then
    some best.el.dmats
  else none

/-- `NodalEnrichedElement(*elements)`, nodal_enriched.py:30-80, for elements on the cell `s` with the same value shape, whose components
are enumerated by `comp`.  The checks that the elements have the same cell, expansion set, mapping and value shape hold by construction;
`embedded_degree`, the maximum, is the degree of the largest element.  An empty argument list is `none` (`IndexError`). -/
noncomputable def nodalEnriched {Cp : Type} [Fintype Cp] (s : SimplexCell (Fin D → ℝ)) (comp : Cp → List ℕ) (ps : List (NodalPart D Cp)) :
    Option (NodalPart D Cp) := do
  let best ← lastLargest ps
  let dmats ← mergeDmats ps best
  let coeffs := mergeCoeffs (ps.map fun (p : NodalPart D Cp) => (p.dim, p.expDim, p.rows))
  let poly_set : PolySet ℝ (Fin D → ℝ) ((best.degree + D).choose D) (ps.map NodalPart.dim).sum Cp :=
    ⟨D, expTab s.verts best.degree, fun i c k => coeffs i c k, dmats⟩
  let entity_ids := mergeEntityIds (ps.map fun (p : NodalPart D Cp) => (p.dim, p.ids))
  let nodes := ps.flatMap NodalPart.nodes
  let el ← ciarletElement (onExpTab ((best.degree + D).choose D) D poly_set.base poly_set.dmats) comp poly_set nodes
  some ⟨best.degree, (ps.map NodalPart.dim).sum, el, nodes, entity_ids⟩

/-- `Lagrange(cell, degree)` as such an element, lagrange.py:42-49. -/
noncomputable def lagrangePart (s : SimplexCell (Fin D → ℝ)) (degree : ℕ) : Option (NodalPart D Unit) := do
  let element ← lagrangeElement s degree
  let dual ← lagrangeDual ℝ s degree
  some ⟨degree, (degree + D).choose D, element.1, dual.1.map pointEvaluation, element.2⟩

/-- `RestrictedElement(element, indices)` as such an element, restricted.py:15-60. -/
noncomputable def restrictPart {Cp : Type} [Fintype Cp] (comp : Cp → List ℕ) (p : NodalPart D Cp) (indices : List ℤ) : Option (NodalPart D Cp) := do
  let r ← restrictedElement comp p.el p.nodes p.ids indices
  some ⟨p.degree, r.1, r.2.1, r.2.2.1, r.2.2.2⟩

/-- `CodimBubble(cell, degree, codim)` as such an element, bubble.py:16-25. -/
noncomputable def bubblePart (s : SimplexCell (Fin D → ℝ)) (degree codim : ℕ) : Option (NodalPart D Unit) := do
  let r ← codimBubble s degree codim
  some ⟨degree, r.1, r.2.1, r.2.2.1, r.2.2.2⟩

end
end FIAT
