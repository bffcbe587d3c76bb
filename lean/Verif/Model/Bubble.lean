/-
Model of `RestrictedElement.__init__` as a Ciarlet element (FIAT/restricted.py:15-60) and of `CodimBubble`, `Bubble`, `FacetBubble`
(FIAT/bubble.py:13-41).
-/
import Verif.Model.Restricted
import Verif.Model.ONSet

namespace FIAT
section
variable {D : ℕ}

/-- `RestrictedElement(element, indices)`, restricted.py:15-60: `S` is the element's nodal basis, `nodes` and `ids` its dual set.
The result is the number of basis functions, the new polynomial set, the new nodes and the new `entity_ids`.  An index outside
`0..m-1` is `none`: numpy raises an `IndexError` in `take`, or, for a negative one, the assertion on `dof_counter` fails later.  The
assertion on the mappings and the `isinstance` check are not modelled. -/
noncomputable def restrictedElement {N m : ℕ} {Cp : Type} [Fintype Cp] (comp : Cp → List ℕ) (S : PolySet ℝ (Fin D → ℝ) N m Cp)
    (nodes : List (Functional ℝ (Fin D → ℝ))) (ids : EntityIds ℕ) (indices : List ℤ) :
    Option ((r : ℕ) × PolySet ℝ (Fin D → ℝ) N r Cp × List (Functional ℝ (Fin D → ℝ)) × EntityIds ℕ) := do
  let items : List (Fin m) ← indices.mapM fun (i : ℤ) => if h : 0 ≤ i ∧ i.toNat < m then some ⟨i.toNat, h.2⟩ else none
  let dual ← restrict indices ids
  let newNodes ← dual.1.mapM fun (i : ℕ) => nodes[i]?
  let el ← ciarletElement (onExpTab N D S.base S.dmats) comp (S.takeRows items.get) newNodes
  some ⟨items.length, el, newNodes, dual.2⟩

/-- `sorted(chain(*element.entity_dofs()[d].values()))`, bubble.py:21. -/
def sortedDofs (entities : Dict ℕ (List ℕ)) : List ℕ := pySorted (entities.flatMap fun p => p.2)

/-- `CodimBubble(ref_el, degree, codim)`, bubble.py:16-25 (`codim ≤ D`; otherwise the lookup `entity_dofs()[cell_dim - codim]`
raises `KeyError`). -/
noncomputable def codimBubble (s : SimplexCell (Fin D → ℝ)) (degree codim : ℕ) :
    Option ((r : ℕ) × PolySet ℝ (Fin D → ℝ) ((degree + D).choose D) r Unit × List (Functional ℝ (Fin D → ℝ)) × EntityIds ℕ) := do
  let element ← lagrangeElement s degree
  let dual ← lagrangeDual ℝ s degree
  let entities ← if codim ≤ D then Dict.get? element.2 (D - codim) else none
  let dofs := sortedDofs entities
  if dofs.length = 0 then none else
  restrictedElement (fun _ : Unit => []) element.1 (dual.1.map pointEvaluation) element.2 (dofs.map fun (i : ℕ) => (i : ℤ))

/-- `Bubble(ref_el, degree)`, bubble.py:28-32. -/
noncomputable def bubble (s : SimplexCell (Fin D → ℝ)) (degree : ℕ) := codimBubble s degree 0

/-- `FacetBubble(ref_el, degree)`, bubble.py:35-39. -/
noncomputable def facetBubble (s : SimplexCell (Fin D → ℝ)) (degree : ℕ) := codimBubble s degree 1

end
end FIAT
