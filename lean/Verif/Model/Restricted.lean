/-
Model of `RestrictedElement.__init__` and `_get_indices` (FIAT/restricted.py:12-110) and of
`PolynomialSet.take` (FIAT/polynomial_set.py:115-119).
-/
import Verif.Model.Cell
import Verif.Model.Key
import Verif.Model.PolySet

namespace FIAT
section
variable {δ : Type} [LinearOrder δ]

/-- The dof loop, restricted.py:47-52: state `(dof_counter, nodes, entity_ids[d][entity])`; `nodes` holds the old
numbers of the kept nodes (`nodes_old[dof]` is looked up later).  `indices` are Python ints. -/
def restrictDofs (indices : List ℤ) (dofs : List ℕ) (st : ℕ × List ℕ × List ℕ) : ℕ × List ℕ × List ℕ :=
  dofs.foldl (fun s (dof : ℕ) =>
    if (dof : ℤ) ∉ indices then s else (s.1 + 1, s.2.1 ++ [dof], s.2.2 ++ [s.1])) st

/-- The loops over `element.entity_dofs()`, restricted.py:40-52: state `(dof_counter, nodes, entity_ids)`. -/
def restrictLoop (indices : List ℤ) (ids : EntityIds δ) : Option (ℕ × List ℕ × EntityIds δ) :=
  ids.foldlM (fun st p =>
    p.2.foldlM (fun (st : ℕ × List ℕ × EntityIds δ) q => do
        let inner ← st.2.2.get? p.1
        let r := restrictDofs indices q.2 (st.1, st.2.1, [])
        some (r.1, r.2.1, Dict.put st.2.2 p.1 (Dict.put inner q.1 r.2.2)))
      (st.1, st.2.1, Dict.put st.2.2 p.1 [])) (0, [], [])

/-- `RestrictedElement.__init__`, restricted.py:15-60, for explicit `indices`: the old numbers of the new element's
nodes, in order, and its `entity_dofs`.  `none`: empty `indices`, or the assertion `dof_counter == len(indices)`
fails.  (The assertion that all kept mappings agree is not modelled.) -/
def restrict (indices : List ℤ) (ids : EntityIds δ) : Option (List ℕ × EntityIds δ) := do
  if indices.isEmpty then none else
  let st ← restrictLoop indices ids
  if st.1 = indices.length then some (st.2.1, st.2.2) else none
end

/-- `restriction_domain`. -/
inductive Domain | interior | vertex | edge | face | facet | invalid

/-- `dim + 1` for the domains other than the interior, restricted.py:79-88. -/
def Domain.count (sd : ℕ) : Domain → Option ℕ
  | .vertex => some 1
  | .edge => some 2
  | .face => some 3
  | .facet => some sd
  | .interior => none
  | .invalid => none

/-- `max(element.entity_dofs().keys())`; `none` is the `ValueError` for an empty dict. -/
def maxKey : List Key → Option Key
  | [] => none
  | k :: ks => some (ks.foldl max k)

/-- `for (entity, index) in sorted_by_key(entities): indices += index`, restricted.py:62-67, 100-108 (all keys
are ints, so the type name in the sort key does not matter). -/
def entityDofsSorted (entities : Dict ℕ (List ℕ)) : List ℕ := (sortedItems entities).flatMap Prod.snd

/-- `_get_indices(element, restriction_domain)`, restricted.py:70-110; `sd` is the spatial dimension. -/
def getIndices (sd : ℕ) (ids : EntityIds Key) (dom : Domain) : Option (List ℕ) :=
  match dom with
  | .interior => do
    let k ← maxKey (Dict.keys ids)
    ids.at? k 0
  | _ => do
    let n ← dom.count sd
    let k ← maxKey (Dict.keys ids)
    match k with
    | .int _ =>
      (List.range n).foldlM (fun acc d => do
        let entities ← ids.get? (.int d)
        some (acc ++ entityDofsSorted entities)) []
    | _ =>
      some ((List.range n).flatMap fun d => (List.range (d + 1)).flatMap fun a =>
        match ids.get? (Key.tup [.int a, .int (d - a)]) with
        | some entities => entityDofsSorted entities
        | none => [])

/-- `PolynomialSet.take(items)`, polynomial_set.py:115-119, for items in range. -/
def PolySet.takeRows {K P : Type} [Field K] {N m r : ℕ} {C : Type} (S : PolySet K P N m C) (items : Fin r → Fin m) :
    PolySet K P N r C := { S with coeffs := fun i => S.coeffs (items i) }

end FIAT
