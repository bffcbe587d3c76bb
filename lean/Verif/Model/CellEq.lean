/-
Model of cell identity and of the cell factories: `Cell.__eq__/__ne__/__hash__/_key`
(FIAT/reference_element.py:155-167, :694-695), `ufc_simplex`, `default_simplex`, `ufc_cell` (:937-992),
`is_hypercube`, `flatten_reference_cube` (:1028-1050), `construct_subelement`
(:455-470, :708-715, :792-806, :853-869).
-/
import Verif.Model.TensorCell

namespace FIAT

/-- The concrete cell classes of reference_element.py; `type(self)`. -/
inductive CellClass where
  | point | defaultLine | ufcInterval | defaultTriangle | ufcTriangle | intrepidTriangle
  | defaultTetrahedron | ufcTetrahedron | intrepidTetrahedron | ufcQuadrilateral | ufcHexahedron
  | tensorProduct
  deriving DecidableEq, Repr

/-- A cell object: its class, the attributes `vertices`, `topology`, and the attribute `cells` of
`TensorProductCell` (empty for the other classes). -/
inductive CellObj (α : Type) where
  | mk (cls : CellClass) (data : CellData α) (cells : List (CellObj α))

namespace CellObj
variable {α : Type}

def cls : CellObj α → CellClass | mk c _ _ => c
def data : CellObj α → CellData α | mk _ d _ => d
def cells : CellObj α → List (CellObj α) | mk _ _ l => l

mutual
/-- `Cell.__eq__`, reference_element.py:160-161: `type(self) == type(other) and self._key() == other._key()`;
`_key` is `None` (:155-158) except for `TensorProductCell`, where it is the tuple `self.cells` (:694-695).
The vertices and the topology are not compared. -/
def pyEq : CellObj α → CellObj α → Bool
  | mk c _ l, mk c' _ l' =>
    decide (c = c') && (if c = .tensorProduct then pyEqTuple l l' else true)
/-- Equality of tuples of cells. -/
def pyEqTuple : List (CellObj α) → List (CellObj α) → Bool
  | [], [] => true
  | a :: l, b :: l' => pyEq a b && pyEqTuple l l'
  | _, _ => false
end

/-- `Cell.__ne__`, reference_element.py:163-164. -/
def pyNe (a b : CellObj α) : Bool := !(pyEq a b)

mutual
/-- `Cell.__hash__`, reference_element.py:166-167: `hash((type(self), self._key()))`.  Python's hash of types,
of `None` and of tuples are parameters. -/
def pyHash (hType : CellClass → ℤ) (hNone : ℤ) (hTuple : List ℤ → ℤ) : CellObj α → ℤ
  | mk c _ l => hTuple [hType c,
      if c = .tensorProduct then hTuple (pyHashes hType hNone hTuple l) else hNone]
def pyHashes (hType : CellClass → ℤ) (hNone : ℤ) (hTuple : List ℤ → ℤ) : List (CellObj α) → List ℤ
  | [] => []
  | a :: l => pyHash hType hNone hTuple a :: pyHashes hType hNone hTuple l
end

end CellObj

section
variable {α : Type} [Zero α] [One α] [Neg α]

/-- Vertices and topology set by the argument-free constructors (see `Verif.Model.TensorCell`). -/
def CellClass.data : CellClass → CellData α
  | .point => FIAT.pointCell
  | .defaultLine => FIAT.defaultLine
  | .ufcInterval => FIAT.ufcInterval
  | .defaultTriangle => FIAT.defaultTriangle
  | .ufcTriangle => FIAT.ufcTriangle
  | .intrepidTriangle => FIAT.intrepidTriangle
  | .defaultTetrahedron => FIAT.defaultTetrahedron
  | .ufcTetrahedron => FIAT.ufcTetrahedron
  | .intrepidTetrahedron => FIAT.intrepidTetrahedron
  | .ufcQuadrilateral => FIAT.ufcQuadrilateral
  | .ufcHexahedron => FIAT.ufcHexahedron
  | .tensorProduct => tensorProductCell []

/-- The constructor call `C()` of an argument-free class. -/
def CellObj.new (c : CellClass) : CellObj α := .mk c c.data []

/-- The constructor call `TensorProductCell(*cells)`, reference_element.py:668-691. -/
def CellObj.tensor (cells : List (CellObj α)) : CellObj α :=
  .mk .tensorProduct (tensorProductCell (cells.map CellObj.data)) cells

/-- The objects that exist: those returned by the constructors. -/
inductive CellObj.Built : CellObj α → Prop where
  | new (c : CellClass) : c ≠ .tensorProduct → Built (CellObj.new c)
  | tensor (cells : List (CellObj α)) : (∀ c ∈ cells, Built c) → Built (CellObj.tensor cells)

/-- `ufc_simplex(spatial_dim)`, reference_element.py:950-962; `none` is the `RuntimeError`. -/
def ufcSimplex : ℤ → Option (CellObj α)
  | 0 => some (.new .point)
  | 1 => some (.new .ufcInterval)
  | 2 => some (.new .ufcTriangle)
  | 3 => some (.new .ufcTetrahedron)
  | _ => none

/-- `default_simplex(spatial_dim)`, reference_element.py:937-947. -/
def defaultSimplex : ℤ → Option (CellObj α)
  | 1 => some (.new .defaultLine)
  | 2 => some (.new .defaultTriangle)
  | 3 => some (.new .defaultTetrahedron)
  | _ => none

/-- Python `s.split(" * ")`: leftmost, non-overlapping; `acc` is the current piece. -/
def splitStar : List Char → List Char → List (List Char)
  | acc, ' ' :: '*' :: ' ' :: rest => acc :: splitStar [] rest
  | acc, c :: cs => splitStar (acc ++ [c]) cs
  | acc, [] => [acc]

/-- The separator of `ufc_cell`. -/
def starSep : List Char := [' ', '*', ' ']

/-! The cell names as lists of characters. -/
def nmQuadrilateral : List Char := ['q', 'u', 'a', 'd', 'r', 'i', 'l', 'a', 't', 'e', 'r', 'a', 'l']
def nmHexahedron : List Char := ['h', 'e', 'x', 'a', 'h', 'e', 'd', 'r', 'o', 'n']
def nmVertex : List Char := ['v', 'e', 'r', 't', 'e', 'x']
def nmInterval : List Char := ['i', 'n', 't', 'e', 'r', 'v', 'a', 'l']
def nmTriangle : List Char := ['t', 'r', 'i', 'a', 'n', 'g', 'l', 'e']
def nmTetrahedron : List Char := ['t', 'e', 't', 'r', 'a', 'h', 'e', 'd', 'r', 'o', 'n']

/-- The last branches of `ufc_cell`, reference_element.py:979-992: a name without separator. -/
def ufcAtom (s : List Char) : Option (CellObj α) :=
  if s = nmQuadrilateral then some (.new .ufcQuadrilateral)
  else if s = nmHexahedron then some (.new .ufcHexahedron)
  else if s = nmVertex then ufcSimplex 0
  else if s = nmInterval then ufcSimplex 1
  else if s = nmTriangle then ufcSimplex 2
  else if s = nmTetrahedron then ufcSimplex 3
  else none

/-- `ufc_cell(cell)` on a string, reference_element.py:965-992; strings are lists of characters, `none` is
the `RuntimeError`.  The recursion of the code is bounded by `fuel`; see `ufcCell`. -/
def ufcCellFuel : ℕ → List Char → Option (CellObj α)
  | 0, _ => none
  | fuel + 1, s =>
    if starSep <:+: s then
      (((splitStar [] s).mapM (ufcCellFuel fuel)).map CellObj.tensor)
    else ufcAtom s

/-- `ufc_cell(cell)`: recursion depth at most `len(cell) + 1` (the theorem `ufcCellFuel_stable` shows that
more fuel changes nothing). -/
def ufcCell (s : List Char) : Option (CellObj α) := ufcCellFuel (s.length + 2) s

end
end FIAT
