/-
Model of `Cell` topology (FIAT/reference_element.py:105-156), of `DualSet.__init__`'s closure loop and
`make_entity_closure_ids` (FIAT/dual_set.py:16-33, 138-152).

Entity dimensions are keys of an arbitrary linearly ordered type `δ` (`ℕ` for simplices, tuples with the
lexicographic order for tensor-product cells); entity numbers and vertex numbers are naturals.
-/
import Verif.Model.PyDict

namespace FIAT

/-- `topology`: dimension ↦ entity number ↦ tuple of vertex numbers (reference_element.py:110-120). -/
abbrev Topology (δ : Type) := Dict δ (Dict ℕ (List ℕ))

/-- Both levels of a topology dictionary have distinct keys (a fact about every Python dict). -/
def Topology.WF {δ : Type} (t : Topology δ) : Prop :=
  Dict.WF t ∧ ∀ p ∈ t, Dict.WF p.2

section
variable {δ : Type} [LinearOrder δ]

/-- The list built at reference_element.py:128-136 for an entity with vertex tuple `v`:
all `(dim_, e_)` of the topology whose vertices are contained in `v`, then sorted. -/
def subEntitiesOf (topo : Topology δ) (v : List ℕ) : List (δ ×ₗ ℕ) :=
  pySorted <| topo.flatMap fun p =>
    (p.2.filter fun q => q.2.all (fun x => v.contains x)).map fun q => toLex (p.1, q.1)

/-- `Cell.sub_entities`, reference_element.py:122-139. -/
def subEntities (topo : Topology δ) : Dict δ (Dict ℕ (List (δ ×ₗ ℕ))) :=
  topo.map fun p => (p.1, p.2.map fun q => (q.1, subEntitiesOf topo q.2))

/-- `Cell.connectivity`, reference_element.py:141-156, for integer dimensions (tensor-product
dimensions are skipped by the code). -/
def connectivity (topo : Topology ℕ) : Dict (ℕ × ℕ) (List (List ℕ)) :=
  (subEntities topo).foldl (fun conn p =>
    (sortedItems p.2).foldl (fun conn q =>
      (List.range (p.1 + 1)).foldl (fun conn dim1 =>
        conn.appendAt (p.1, dim1)
          [(q.2.filter fun x => (ofLex x).1 == dim1).map fun x => (ofLex x).2]) conn) conn) []

/-- Entity numbering of degrees of freedom: dimension ↦ entity ↦ list of dof numbers. -/
abbrev EntityIds (δ : Type) := Dict δ (Dict ℕ (List ℕ))

/-- `entity_ids[d][se]`; `none` is `KeyError`. -/
def EntityIds.at? (ids : EntityIds δ) (d : δ) (e : ℕ) : Option (List ℕ) :=
  (ids.get? d).bind fun m => m.get? e

/-- dual_set.py:27-31: concatenate the dofs of the sub-entities and sort; the second component is the
value of the loop variable `d` after the loop (`d₀` if the loop body never ran). -/
def closureIds (ids : EntityIds δ) (d₀ : δ) : List (δ ×ₗ ℕ) → Option (δ × List ℕ)
  | [] => some (d₀, [])
  | s :: rest => do
    let here ← ids.at? (ofLex s).1 (ofLex s).2
    let (d, more) ← closureIds ids (ofLex s).1 rest
    return (d, here ++ more)

/-- `DualSet.__init__` / `make_entity_closure_ids`, dual_set.py:21-33 and 138-152.  The result is stored
under the *inner* loop variable `d` (`self.entity_closure_ids[d][e] = ids`): writing to a dimension
that has no dictionary yet is a `KeyError` (`none`).  The empty-`sub_entities` case, in which Python
would use a stale `d`, uses the outer `dim`; it never happens because an entity contains itself. -/
def entityClosureIds (topo : Topology δ) (ids : EntityIds δ) : Option (EntityIds δ) :=
  (subEntities topo).foldlM (fun acc p =>
    p.2.foldlM (fun acc q => do
      let (d, l) ← closureIds ids p.1 q.2
      let inner ← acc.get? d
      return acc.put d (inner.put q.1 (pySorted l))) (acc.put p.1 [])) []

end
end FIAT
