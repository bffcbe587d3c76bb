/-
Model of the shipped cells' vertices and topologies (FIAT/reference_element.py:478-657), of
`TensorProductCell.__init__` (:668-690), of `flatten_entities` and `compute_unflattening_map`
(:1053-1077), and of `UFCQuadrilateral`/`UFCHexahedron` (:774-788, :836-851).
-/
import Verif.Model.Cell
import Verif.Model.Key
import Mathlib.Data.List.Lex

namespace FIAT

/-- Vertices and topology of a `Cell`; `α` is the coordinate type. -/
structure CellData (α : Type) where
  verts : List (List α)
  topo : Topology Key

/-- A topology written with integer dimensions. -/
def intTopo (t : List (List (List ℕ))) : Topology Key :=
  t.zipIdx.map fun p => (Key.int p.2, p.1.zipIdx.map fun q => (q.2, q.1))

section cells
variable {α : Type} [Zero α] [One α] [Neg α]

/-- `Point`, reference_element.py:478-484. -/
def pointCell : CellData α := ⟨[[]], intTopo [[[0]]]⟩
/-- `UFCInterval`, :510-518. -/
def ufcInterval : CellData α := ⟨[[0], [1]], intTopo [[[0], [1]], [[0, 1]]]⟩
/-- `DefaultLine`, :496-504. -/
def defaultLine : CellData α := ⟨[[-1], [1]], intTopo [[[0], [1]], [[0, 1]]]⟩
/-- `UFCTriangle`, :539-549. -/
def ufcTriangle : CellData α :=
  ⟨[[0, 0], [1, 0], [0, 1]],
    intTopo [[[0], [1], [2]], [[1, 2], [0, 2], [0, 1]], [[0, 1, 2]]]⟩
/-- `DefaultTriangle`, :521-534. -/
def defaultTriangle : CellData α :=
  ⟨[[-1, -1], [1, -1], [-1, 1]],
    intTopo [[[0], [1], [2]], [[1, 2], [2, 0], [0, 1]], [[0, 1, 2]]]⟩
/-- `IntrepidTriangle`, :558-570. -/
def intrepidTriangle : CellData α :=
  ⟨[[0, 0], [1, 0], [0, 1]],
    intTopo [[[0], [1], [2]], [[0, 1], [1, 2], [2, 0]], [[0, 1, 2]]]⟩
/-- `UFCTetrahedron`, :634-657. -/
def ufcTetrahedron : CellData α :=
  ⟨[[0, 0, 0], [1, 0, 0], [0, 1, 0], [0, 0, 1]],
    intTopo [[[0], [1], [2], [3]], [[2, 3], [1, 3], [1, 2], [0, 3], [0, 2], [0, 1]],
      [[1, 2, 3], [0, 2, 3], [0, 1, 3], [0, 1, 2]], [[0, 1, 2, 3]]]⟩
/-- `DefaultTetrahedron`, :577-601. -/
def defaultTetrahedron : CellData α :=
  ⟨[[-1, -1, -1], [1, -1, -1], [-1, 1, -1], [-1, -1, 1]],
    intTopo [[[0], [1], [2], [3]], [[1, 2], [2, 0], [0, 1], [0, 3], [1, 3], [2, 3]],
      [[1, 3, 2], [2, 3, 0], [3, 1, 0], [0, 1, 2]], [[0, 1, 2, 3]]]⟩
/-- `IntrepidTetrahedron`, :606-629. -/
def intrepidTetrahedron : CellData α :=
  ⟨[[0, 0, 0], [1, 0, 0], [0, 1, 0], [0, 0, 1]],
    intTopo [[[0], [1], [2], [3]], [[0, 1], [1, 2], [2, 0], [0, 3], [1, 3], [2, 3]],
      [[0, 1, 3], [1, 2, 3], [0, 3, 2], [0, 2, 1]], [[0, 1, 2, 3]]]⟩
end cells

/-- `itertools.product(*ls)` (rightmost index varies fastest). -/
def pyProduct {β : Type*} : List (List β) → List (List β)
  | [] => [[]]
  | l :: ls => l.flatMap fun x => (pyProduct ls).map fun xs => x :: xs

/-- `numpy.ravel_multi_index(idx, shape)` (row major) for one index tuple in range. -/
def ravel : List ℕ → List ℕ → ℕ
  | i :: is, _ :: ss => i * ss.prod + ravel is ss
  | _, _ => 0

/-- `numpy.unravel_index(n, shape)` (row major). -/
def unravel (n : ℕ) : List ℕ → List ℕ
  | [] => []
  | _ :: ss => n / ss.prod :: unravel (n % ss.prod) ss

/-- `dict(enumerate(l))`. -/
def enumDict {β : Type*} (l : List β) : Dict ℕ β := l.zipIdx.map fun p => (p.2, p.1)

/-- The body of the `dim` loop, reference_element.py:677-688: `dims` is the tuple of factor dimensions
together with the factor dictionaries `topds`, `shape` the tuple of vertex counts.  The dictionary
keyed by `tuple_ei` is built, sorted by key and renumbered. -/
def productEntities (shape : List ℕ) (topds : List (Dict ℕ (List ℕ))) : Dict ℕ (List ℕ) :=
  let d : Dict (List ℕ) (List ℕ) :=
    (pyProduct (topds.map fun topd => pySorted topd.keys)).foldl
      (fun d ei =>
        let vss := List.zipWith (fun (topd : Dict ℕ (List ℕ)) e => (topd.get? e).getD []) topds ei
        d.put ei ((pyProduct vss).map fun vs => ravel vs shape)) []
  enumDict ((sortedItems d).map Prod.snd)

/-- `TensorProductCell.__init__`, reference_element.py:668-690.  (`getD []` stands for `KeyError`s that
cannot occur, because the keys come from the same dictionaries.) -/
def tensorProductCell {α : Type} (cells : List (CellData α)) : CellData α where
  verts := (pyProduct (cells.map CellData.verts)).map List.flatten
  topo :=
    let shape := cells.map fun c => c.verts.length
    (pyProduct (cells.map fun c => Dict.keys c.topo)).foldl
      (fun t dim =>
        t.put (Key.tup dim)
          (productEntities shape
            (List.zipWith (fun (c : CellData α) d => (c.topo.get? d).getD []) cells dim))) []

/-- `flatten_entities(topology_dict)`, reference_element.py:1053-1062. -/
def flattenEntities {α : Type} (t : Dict Key (Dict ℕ α)) : Dict ℕ (Dict ℕ α) :=
  ((sortedItems t).foldl (fun (acc : Dict ℕ (List α)) p =>
    acc.appendAt p.1.tupleSum ((sortedItems p.2).map Prod.snd)) []).map
    fun p => (p.1, enumDict p.2)

/-- `compute_unflattening_map(topology_dict)`, reference_element.py:1065-1077: `counter` is the
`defaultdict(count)`. -/
def computeUnflatteningMap {α : Type} (t : Dict Key (Dict ℕ α)) : Dict (ℕ × ℕ) (Key × ℕ) :=
  ((sortedItems t).foldl (fun (acc : Dict ℕ ℕ × Dict (ℕ × ℕ) (Key × ℕ)) p =>
    p.2.foldl (fun acc q =>
      let n := (acc.1.get? p.1.tupleSum).getD 0
      (acc.1.put p.1.tupleSum (n + 1), acc.2.put (p.1.tupleSum, n) (p.1, q.1))) acc)
    ([], [])).2

/-- `UFCQuadrilateral.__init__`, reference_element.py:774-788. -/
def ufcQuadrilateral {α : Type} [Zero α] [One α] : CellData α :=
  let p : CellData α := tensorProductCell [ufcInterval, ufcInterval]
  ⟨p.verts, (flattenEntities p.topo).map fun q => (Key.int q.1, q.2)⟩

/-- `UFCHexahedron.__init__`, reference_element.py:836-851. -/
def ufcHexahedron {α : Type} [Zero α] [One α] : CellData α :=
  let p : CellData α := tensorProductCell [ufcInterval, ufcInterval, ufcInterval]
  ⟨p.verts, (flattenEntities p.topo).map fun q => (Key.int q.1, q.2)⟩

end FIAT
