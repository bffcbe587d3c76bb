/-
Model of how elements are combined: `concatenate_entity_dofs` and `MixedElement.tabulate`
(FIAT/mixed.py:64-109), `EnrichedElement.tabulate` (FIAT/enriched.py:83-110), `_merge_coeffs`,
`_merge_entity_ids` (FIAT/nodal_enriched.py:85-127), `RestrictedElement` and `_get_indices`
(FIAT/restricted.py).
-/
import Verif.Model.Cell
import Verif.Model.Key

namespace FIAT
section
variable {δ : Type} [LinearOrder δ]

/-- `ids[d][e] += xs`; `none` is a `KeyError`. -/
def addToEntity (ids : EntityIds δ) (d : δ) (e : ℕ) (xs : List ℕ) : Option (EntityIds δ) := do
  let inner ← ids.get? d
  let l ← inner.get? e
  some (Dict.put ids d (Dict.put inner e (l ++ xs)))

/-- `concatenate_entity_dofs(ref_el, elements)`, mixed.py:96-109; an element is given by its
`space_dimension()` and its `entity_dofs()`.  The first component of the state is `offsets[i]`. -/
def concatenateEntityDofs (topo : Topology δ) (es : List (ℕ × EntityIds δ)) : Option (EntityIds δ) :=
  let init : EntityIds δ := topo.map fun p => (p.1, p.2.map fun q => (q.1, ([] : List ℕ)))
  (es.foldlM (fun (st : ℕ × EntityIds δ) (x : ℕ × EntityIds δ) => do
      let ids ← x.2.foldlM (fun (ids : EntityIds δ) (p : δ × Dict ℕ (List ℕ)) =>
        p.2.foldlM (fun (ids : EntityIds δ) (q : ℕ × List ℕ) =>
          addToEntity ids p.1 q.1 (q.2.map (st.1 + ·))) ids) st.2
      some (st.1 + x.1, ids)) (0, init)).map Prod.snd

/-- One step of `_merge_entity_ids`, nodal_enriched.py:120-126 (`ret[dim][entity] += ...` after creating
the missing dictionaries and lists; an existing empty one is replaced by a new empty one). -/
def mergeStep (ret : EntityIds δ) (d : δ) (e : ℕ) (xs : List ℕ) : EntityIds δ :=
  let inner := (Dict.get? ret d).getD []
  let l := (Dict.get? inner e).getD []
  Dict.put ret d (Dict.put inner e (l ++ xs))

/-- `_merge_entity_ids(entity_ids, offsets)`, nodal_enriched.py:116-127, with
`offsets = cumsum([0] + dims[:-1])` (:69-71). -/
def mergeEntityIds (es : List (ℕ × EntityIds δ)) : EntityIds δ :=
  (es.foldl (fun (st : ℕ × EntityIds δ) x =>
    (st.1 + x.1,
      x.2.foldl (fun ret p =>
        let ret := match Dict.get? ret p.1 with
          | some (_ :: _) => ret
          | _ => Dict.put ret p.1 []
        p.2.foldl (fun ret q => mergeStep ret p.1 q.1 (q.2.map (· + st.1))) ret) st.2)) (0, [])).2

end

section tabulate
variable {K κ : Type} [Zero K] [DecidableEq κ]

/-- An element as seen by `MixedElement.tabulate`/`EnrichedElement.tabulate`: `space_dimension()`, number of
components `prod(value_shape())`, and the table: derivative ↦ array `[dof, component, point]`
(components flattened in row-major order, as `reshape(ir, cr, -1)` does). -/
structure SubTable (K κ : Type) where
  dim : ℕ
  comps : ℕ
  table : Dict κ (ℕ → ℕ → ℕ → K)

/-- `arr[r0:r0+n, c0:c0+m] = tab`. -/
def writeBlock (arr : ℕ → ℕ → ℕ → K) (r0 n c0 m : ℕ) (tab : ℕ → ℕ → ℕ → K) : ℕ → ℕ → ℕ → K :=
  fun r c p => if r0 ≤ r ∧ r < r0 + n ∧ c0 ≤ c ∧ c < c0 + m then tab (r - r0) (c - c0) p else arr r c p

/-- `MixedElement.tabulate`, mixed.py:64-90; state: `(irange[i], crange[i], output)`. -/
def mixedTabulate (es : List (SubTable K κ)) : Dict κ (ℕ → ℕ → ℕ → K) :=
  (es.foldl (fun (st : ℕ × ℕ × Dict κ (ℕ → ℕ → ℕ → K)) x =>
    (st.1 + x.dim, st.2.1 + x.comps,
      x.table.foldl (fun out t =>
        Dict.put out t.1 (writeBlock ((Dict.get? out t.1).getD (fun _ _ _ => 0)) st.1 x.dim st.2.1 x.comps t.2))
        st.2.2)) (0, 0, [])).2.2

/-- `EnrichedElement.tabulate`, enriched.py:83-110, for value shapes of rank 0 or 1 (for rank 2 the assignment raises a
broadcasting error); all elements have the same components. -/
def enrichedTabulate (comps : ℕ) (es : List (SubTable K κ)) : Dict κ (ℕ → ℕ → ℕ → K) :=
  (es.foldl (fun (st : ℕ × Dict κ (ℕ → ℕ → ℕ → K)) x =>
    (st.1 + x.dim,
      x.table.foldl (fun out t =>
        Dict.put out t.1 (writeBlock ((Dict.get? out t.1).getD (fun _ _ _ => 0)) st.1 x.dim 0 comps t.2))
        st.2)) (0, [])).2

/-- `_merge_coeffs(coeffss)`, nodal_enriched.py:85-106: arrays `[member, component, expansion function]`
of sizes `dim`, `expDim`; the result has `max` of the expansion dimensions. -/
def mergeCoeffs {C : Type} (cs : List (ℕ × ℕ × (ℕ → C → ℕ → K))) : ℕ → C → ℕ → K :=
  (cs.foldl (fun (st : ℕ × (ℕ → C → ℕ → K)) x =>
    (st.1 + x.1, fun r c k =>
      if st.1 ≤ r ∧ r < st.1 + x.1 ∧ k < x.2.1 then x.2.2 (r - st.1) c k else st.2 r c k))
    (0, fun _ _ _ => 0)).2

end tabulate
end FIAT
