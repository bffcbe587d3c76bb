/-
Small specifications shared by the scalar elements with derivative nodes.
-/
import Verif.Lemmas.EntityLoop
import Verif.Lemmas.EntityBubble

namespace FIAT
open MvPolynomial
section
variable {D : ℕ}

/-- Specification: applied to a polynomial `p`, the dofs of entity `(d, e)`, in the order of `entity_ids[d][e]`, give the list
`F p` of numbers. -/
def DofsOf (nodes : List (Functional ℝ (Fin D → ℝ))) (ids : EntityIds ℕ) (d e : ℕ) (F : MvPolynomial (Fin D) ℝ → List ℝ) : Prop :=
  ∃ l, ids.at? d e = some l ∧ ∀ p, l.map (fun i => (nodes[i]?).map fun node => node.onField (scalarField p)) = (F p).map some

/-- Specification: every dof of every sub-entity of the entity with vertices `t` (itself included) is zero on `p`. -/
def ZeroOnClosure (s : SimplexCell (Fin D → ℝ)) (nodes : List (Functional ℝ (Fin D → ℝ))) (ids : EntityIds ℕ) (t : List ℕ)
    (p : MvPolynomial (Fin D) ℝ) : Prop :=
  ∀ d e t', HasEntity s.topo d e t' → (∀ a ∈ t', a ∈ t) → ∀ l, ids.at? d e = some l → ∀ i ∈ l, ∀ node, nodes[i]? = some node →
    node.onField (scalarField p) = 0

/-- Specification: `entity_dofs` has exactly the entities of the cell, and lists every dof exactly once. -/
def ProperDofs (s : SimplexCell (Fin D → ℝ)) (nodes : List (Functional ℝ (Fin D → ℝ))) (ids : EntityIds ℕ) : Prop :=
  DofsPartition ids nodes.length ∧ SameEntities s.topo ids

end
end FIAT
