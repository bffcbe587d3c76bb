/-
Model of FIAT/hdiv_trace.py: the facet geometry helpers (:306-396), the dof numbering of `HDivTrace.__init__`
(:51-112) and `HDivTrace.tabulate` (:141-248).

Points of the cell have type `Q`, points of a facet type `P`.  The DG element on the facets of a given
dimension (`construct_dg_element`, :268-302) is a parameter: its nodes' points and its `tabulate`.
-/
import Verif.Model.Blocks
import Verif.Model.DofLayout
import Verif.Model.Combinat
import Verif.Model.Geometry

namespace FIAT

section geometry
variable {K : Type} [Field K] {n : ℕ}

/-- `T = (np.asarray(vertices[:-1]) - vertices[-1]).T`, hdiv_trace.py:340. -/
def baryMatrix (v : Fin (n + 1) → Fin n → K) : Matrix (Fin n) (Fin n) K :=
  Matrix.of fun i j => v j.castSucc i - v (Fin.last n) i

/-- `barycentric_coordinates(points, vertices)`, hdiv_trace.py:331-346 for a full simplex; `none` is the
`LinAlgError` of `numpy.linalg.inv` on a singular matrix. -/
noncomputable def barycentricCoordinates (points : List (Fin n → K)) (v : Fin (n + 1) → Fin n → K) :
    Option (List (Fin (n + 1) → K)) :=
  open Classical in
  if IsUnit (baryMatrix v).det then
    let invT := (baryMatrix v)⁻¹
    some (points.map fun x =>
      let bary : Fin n → K := fun i => ∑ j, invT i j * (x j - v (Fin.last n) j)
      let last := 1 - ∑ i, bary i
      Fin.snoc (α := fun _ => K) bary last)
  else none

/-- `map_from_reference_facet(point, vertices)`, hdiv_trace.py:349-364. -/
noncomputable def mapFromReferenceFacet {cd : ℕ} (point : Fin n → K) (v : Fin (n + 1) → Fin cd → K) :
    Option (Fin cd → K) := do
  let cs ← barycentricCoordinates [point] (ufcVerts K n)
  let coords ← cs.head?
  some fun l => ∑ j, v j l * coords j

/-- `map_to_reference_facet(points, vertices, facet)`, hdiv_trace.py:367-396, for a simplex in dimension
`n + 1`. -/
noncomputable def mapToReferenceFacet (points : List (Fin (n + 1) → K))
    (v : Fin (n + 2) → Fin (n + 1) → K) (facet : Fin (n + 2)) : Option (List (Fin n → K)) := do
  let all ← barycentricCoordinates points v
  some (all.map fun coords =>
    let newCoords : List K := ((List.finRange (n + 2)).filter fun j => decide (j ≠ facet)).map coords
    fun l => ∑ j : Fin (n + 1), ufcVerts K n j l * newCoords.getD (j : ℕ) 0)

end geometry

section facet
variable {K : Type} [Field K] [LinearOrder K] {m : ℕ}

/-- `set([i for (i, l) in enumerate(c) if abs(l) < tolerance])`, hdiv_trace.py:316, as the increasing list of
its elements. -/
def onFacets (tol : K) (c : Fin m → K) : List (Fin m) :=
  (List.finRange m).filter fun i => decide (|c i| < tol)

/-- `extract_unique_facet(coordinates, tolerance)`, hdiv_trace.py:306-328.  Outer `none`: `IndexError` of
`facets[0]`; inner `none`: `(None, False)`. -/
def extractUniqueFacet (tol : K) (coordinates : List (Fin m → K)) : Option (Option (Fin m)) :=
  let facets := coordinates.map (onFacets tol)
  match facets with
  | [] => none
  | f0 :: _ =>
    let unique := facets.foldl (fun (u : List (Fin m)) f => u.filter fun i => decide (i ∈ f)) f0
    match unique with
    | [i] => some (some i)
    | _ => some none

end facet

section element
variable {δ : Type} [LinearOrder δ] {P Q K : Type}

/-- The DG element on the facets of one dimension: the points of its (point-evaluation) nodes and
`tabulate(order, points)` as a dictionary from derivative multi-indices to arrays (one row per node). -/
structure FacetElement (P K : Type) where
  points : List P
  tab : ℕ → List P → Dict (List ℕ) (List (List K))

/-- `element.space_dimension()`: the number of nodes (finite_element.py:77-79). -/
def FacetElement.dim (E : FacetElement P K) : ℕ := E.points.length

/-- The loop hdiv_trace.py:80-89 building `dg_elements`: `subDim d` is the spatial dimension of
`construct_subelement(d)`, `mk d` the element built by `construct_dg_element` (`none`: it raises). -/
def traceDG (topo : Topology δ) (subDim : δ → ℕ) (facetSd : ℕ) (mk : δ → Option (FacetElement P K)) :
    Option (Dict δ (FacetElement P K)) :=
  (topo.filter fun p => decide (subDim p.1 = facetSd)).mapM fun p => (mk p.1).map fun E => (p.1, E)

/-- `len(topology[facet_dim])`, hdiv_trace.py:98. -/
def numFacets (topo : Topology δ) (d : δ) : ℕ := ((Dict.get? topo d).getD []).length

/-- The numbering loop, hdiv_trace.py:93-108: state `(offset, entity_dofs)` and the list of points.
`transform d i` is `ref_el.get_entity_transform(d, i)`. -/
def traceDual (topo : Topology δ) (dg : Dict δ (FacetElement P K)) (transform : δ → ℕ → P → Q) :
    (ℕ × EntityIds δ) × List Q :=
  (sortedItems dg).foldl (fun st p =>
    (List.range (numFacets topo p.1)).foldl (fun (st : (ℕ × EntityIds δ) × List Q) (i : ℕ) =>
      (blockStep p.2.dim st.1 (p.1, i), st.2 ++ p.2.points.map fun y => transform p.1 i y)) st)
    ((0, blankIds topo), [])

/-- An `HDivTrace` object: what `tabulate` uses. -/
structure TraceElement (δ P Q K : Type) where
  sd : ℕ
  topo : Topology δ
  dg : Dict δ (FacetElement P K)
  nodes : List Q
  ids : EntityIds δ

/-- `HDivTrace.__init__`, hdiv_trace.py:42-125; `none`: the `ValueError` on cells of dimension 0 or 1, an
unsupported facet, or no facet at all (`max([])`).  The shape tests (:56-72) are a test of `mk`. -/
def traceInit (sd : ℕ) (topo : Topology δ) (subDim : δ → ℕ) (mk : δ → Option (FacetElement P K))
    (transform : δ → ℕ → P → Q) : Option (TraceElement δ P Q K) :=
  if sd = 0 ∨ sd = 1 then none
  else do
    let dg ← traceDG topo subDim (sd - 1) mk
    if dg.isEmpty then none
    else
      let r := traceDual topo dg transform
      some ⟨sd, topo, dg, r.2, r.1.2⟩

/-- A value of the dictionary returned by `tabulate`: an array, an array of `nan` of the same shape, or a
`TraceError`. -/
inductive TraceVal (K : Type) where
  | arr (rows : List (List K))
  | nan (rows cols : ℕ)
  | error

/-- `x, = dict.values()`: unpacking needs exactly one value (else `ValueError`). -/
def unpackOne {κ α : Type} : Dict κ α → Option α
  | [(_, a)] => some a
  | _ => none

variable [Zero K]

/-- `phivals[evalkey][start:start+nf, :] = nonzerovals` on an array of zeros (the shapes agree). -/
def fillRows (rows cols start nf : ℕ) (vals : List (List K)) : List (List K) :=
  (List.range rows).map fun r =>
    if start ≤ r ∧ r < start + nf then vals.getD (r - start) [] else List.replicate cols 0

/-- hdiv_trace.py:237-248: `TraceError` in the gradient slots, values in the other one. -/
def traceFinish (sd order rows cols start nf : ℕ) (vals : List (List K)) : Dict (List ℕ) (TraceVal K) :=
  (jetKeys sd order).map fun key =>
    (key, if key = List.replicate sd 0 then .arr (fillRows rows cols start nf vals)
          else if order > 0 then .error else .arr (fillRows rows cols 0 0 []))

/-- `tabulate(order, points, entity)` with an entity, hdiv_trace.py:161-171, :207-248.  The loop searches
`(facet_dim, i) == entity`, the last hit wins; no hit is an `UnboundLocalError` (`none`). -/
def traceTabulateEntity (E : TraceElement δ P Q K) (order : ℕ) (points : List P) (entity : δ × ℕ) :
    Option (Dict (List ℕ) (TraceVal K)) :=
  match Dict.get? E.dg entity.1 with
  | none => some ((jetKeys E.sd order).map fun key => (key, .error))
  | some _ => do
    let r ← (sortedItems E.dg).foldlM (fun st p =>
      (List.range (numFacets E.topo p.1)).foldlM
        (fun (st : ℕ × Option (List (List K) × ℕ × ℕ)) (i : ℕ) =>
          if (p.1, i) = entity then
            (unpackOne (p.2.tab 0 points)).map fun vals => (st.1 + p.2.dim, some (vals, st.1, p.2.dim))
          else some (st.1 + p.2.dim, st.2)) st) ((0, none) : ℕ × Option (List (List K) × ℕ × ℕ))
    let h ← r.2
    some (traceFinish E.sd order E.nodes.length points.length h.2.1 h.2.2 h.1)

end element

section simplex
variable {K : Type} [Field K] [LinearOrder K] {n : ℕ}

/-- `tabulate(order, points)` without an entity on a triangle or tetrahedron (dimension `n + 1`),
hdiv_trace.py:161-205, :237-248; `v` are the vertices, `tol` is `epsilon = 1e-10` (:20).  `none`: an
exception. -/
noncomputable def traceTabulatePoints (tol : K) (E : TraceElement ℕ (Fin n → K) (Fin (n + 1) → K) K)
    (v : Fin (n + 2) → Fin (n + 1) → K) (order : ℕ) (points : List (Fin (n + 1) → K)) :
    Option (Dict (List ℕ) (TraceVal K)) := do
  let coordinates ← barycentricCoordinates points v
  let u ← extractUniqueFacet tol coordinates
  match u with
  | none => some ((jetKeys E.sd order).map fun key => (key, .nan E.nodes.length points.length))
  | some facet => do
    let newPoints ← mapToReferenceFacet points v facet
    let element ← Dict.get? E.dg (E.sd - 1)
    let vals ← unpackOne (element.tab order newPoints)
    some (traceFinish E.sd order E.nodes.length points.length
      (element.dim * (facet : ℕ)) element.dim vals)

/-- `Simplex.get_entity_transform(n, i)` on facet `i` of a UFC simplex of dimension `n + 1`,
reference_element.py:392-445, with the facet's vertices looked up in the topology (`none`: no such facet). -/
def facetTransform (s : SimplexCell (Fin (n + 1) → K)) (i : ℕ) : Option ((Fin n → K) → Fin (n + 1) → K) := do
  let es ← Dict.get? s.topo n
  let t ← Dict.get? es i
  let vs ← verticesOf s t
  some (entityTransform (ufcVerts K n) fun j => vs.getD (j : ℕ) 0)

end simplex
end FIAT
