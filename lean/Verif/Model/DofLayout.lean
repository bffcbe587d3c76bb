/-
Model of the entity/dof bookkeeping of the dual sets built entity by entity:
FIAT/lagrange.py, FIAT/discontinuous_lagrange.py, FIAT/P0.py, FIAT/quadrature_element.py,
FIAT/discontinuous.py, and of `Simplex.make_points` (reference_element.py:354-368).
-/
import Verif.Model.Cell
import Verif.Model.Geometry

namespace FIAT

/-- A `Simplex`: spatial dimension, vertices, topology (reference_element.py:105-120, :184-200).
The coordinates live in a module `V`. -/
structure SimplexCell (V : Type) where
  sd : ℕ
  verts : List V
  topo : Topology ℕ

/-- The integer dimension of a simplex entity (`0` for tuples, which simplices do not have). -/
def Key.toNat : Key → ℕ
  | .int n => n
  | _ => 0

/-- A shipped simplex (Model/TensorCell.lean, reference_element.py:478-657) of dimension `d` with its
coordinates as vectors and its dimensions as naturals. -/
def CellData.toSimplex {K : Type} [Zero K] (c : CellData K) (d : ℕ) : SimplexCell (Fin d → K) where
  sd := d
  verts := c.verts.map fun v i => (v[(i : ℕ)]?).getD 0
  topo := c.topo.map fun p => (p.1.toNat, p.2)

section points
variable {K : Type*} {V : Type} [DivisionRing K] [AddCommGroup V] [Module K V]

/-- `make_lattice` on a list of vertices; the empty list is an `IndexError`. -/
def makeLatticeL (K : Type*) {V : Type} [DivisionRing K] [AddCommGroup V] [Module K V]
    (verts : List V) (n interior : ℕ) : Option (List V) :=
  match verts with
  | [] => none
  | v0 :: vs => some (makeLattice K v0 vs n interior)

/-- `get_vertices_of_subcomplex(t)`, reference_element.py:197-200. -/
def verticesOf (s : SimplexCell V) (t : List ℕ) : Option (List V) := t.mapM fun i => s.verts[i]?

/-- `Simplex.make_points(dim, entity_id, order)`, reference_element.py:354-368 (`none`: an exception). -/
def makePoints (K : Type*) {V : Type} [DivisionRing K] [AddCommGroup V] [Module K V]
    (s : SimplexCell V) (dim entity order : ℕ) : Option (List V) :=
  if dim = 0 then (s.verts[entity]?).map fun v => [v]
  else if dim < s.sd then do
    let es ← s.topo.get? dim
    let t ← es.get? entity
    let vs ← verticesOf s t
    makeLatticeL K vs order 1
  else if dim = s.sd then makeLatticeL K s.verts order 1
  else none

end points

section layout
variable {δ : Type} [LinearOrder δ] {N : Type}

/-- The loop `for dim in sorted(top): entity_ids[dim] = {}; for entity in sorted(top[dim]): ...` that
appends the nodes of each entity and records `range(cur, cur + nnodes_cur)`:
lagrange.py:24-34.  State: `(cur, nodes, entity_ids)`. -/
def numberEntities (topo : Topology δ) (pts : δ → ℕ → Option (List N)) :
    Option (ℕ × List N × EntityIds δ) :=
  (sortedItems topo).foldlM (fun st p =>
    (sortedItems p.2).foldlM (fun (st : ℕ × List N × EntityIds δ) q => do
        let new ← pts p.1 q.1
        let inner ← st.2.2.get? p.1
        some (st.1 + new.length, st.2.1 ++ new,
          Dict.put st.2.2 p.1 (Dict.put inner q.1 (List.range' st.1 new.length))))
      (st.1, st.2.1, Dict.put st.2.2 p.1 [])) (0, [], [])

/-- `for dim in sorted(top): entity_ids[dim] = {}; for entity in sorted(top[dim]): entity_ids[dim][entity] = []`:
P0.py:28-32, discontinuous_lagrange.py:26-31, discontinuous.py:18-22. -/
def emptyIds (topo : Topology δ) : EntityIds δ :=
  (sortedItems topo).foldl (fun ids p =>
    (sortedItems p.2).foldl (fun (ids : EntityIds δ) q =>
      Dict.put ids p.1 (Dict.put ((Dict.get? ids p.1).getD []) q.1 [])) (Dict.put ids p.1 [])) []

/-- The same double loop with every entity receiving the empty list, followed by
`entity_ids[dim][0] = list(range(n))`, where `dim` is the loop variable after the loop, i.e. the largest
dimension: discontinuous_lagrange.py:26-37 (dual), discontinuous.py:18-23.  `none`: empty topology
(`NameError`). -/
def cellOnly (topo : Topology δ) (n : ℕ) : Option (EntityIds δ) :=
  let ids := emptyIds topo
  match (sortedItems topo).getLast? with
  | none => none
  | some p => some (Dict.put ids p.1 (Dict.put ((Dict.get? ids p.1).getD []) 0 (List.range n)))

/-- P0.py:28-35: as above but `entity_ids[dim] = {0: [0]}`. -/
def p0Ids (topo : Topology δ) : Option (EntityIds δ) :=
  let ids := emptyIds topo
  match (sortedItems topo).getLast? with
  | none => none
  | some p => some (Dict.put ids p.1 [(0, [0])])

/-- quadrature_element.py:24-26, `cd = ref_el.get_dimension()`, `n = len(points)`. -/
def quadElementIds (topo : Topology δ) (cd : δ) (n : ℕ) : EntityIds δ :=
  Dict.put (topo.map fun p => (p.1, p.2.map fun q => (q.1, ([] : List ℕ)))) cd [(0, List.range n)]

end layout

/-- `LagrangeDualSet.__init__`, lagrange.py:16-36: `(nodes, entity_ids)`; a node is the point at which it
evaluates. -/
def lagrangeDual (K : Type*) {V : Type} [DivisionRing K] [AddCommGroup V] [Module K V]
    (s : SimplexCell V) (degree : ℕ) : Option (List V × EntityIds ℕ) :=
  (numberEntities s.topo fun d e => makePoints K s d e degree).map fun r => (r.2.1, r.2.2)

/-- `DiscontinuousLagrangeDualSet.__init__`, discontinuous_lagrange.py:17-39: same nodes, all on the cell. -/
def discLagrangeDual (K : Type*) {V : Type} [DivisionRing K] [AddCommGroup V] [Module K V]
    (s : SimplexCell V) (degree : ℕ) : Option (List V × EntityIds ℕ) := do
  let r ← numberEntities s.topo fun d e => makePoints K s d e degree
  let ids ← cellOnly s.topo r.2.1.length
  return (r.2.1, ids)

end FIAT
