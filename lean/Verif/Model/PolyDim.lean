/-
Model of the dimension counts in FIAT/expansions.py.
-/
import Mathlib.Data.Int.Notation
import Mathlib.Order.Lattice
import Mathlib.Algebra.Order.Ring.Int

namespace FIAT

/-- Shape codes, reference_element.py:31-37. -/
def POINT : ℕ := 0
def LINE : ℕ := 1
def TRIANGLE : ℕ := 2
def TETRAHEDRON : ℕ := 3
def QUADRILATERAL : ℕ := 11
def HEXAHEDRON : ℕ := 111
def TENSORPRODUCT : ℕ := 99

/-- `polynomial_dimension(ref_el, degree)`, expansions.py:420-434; `none` is a `ValueError`.
Python's `//` on integers is floor division. -/
def polynomialDimension (shape : ℕ) (degree : ℤ) : Option ℤ :=
  if shape = POINT then
    if degree > 0 then none else some 1
  else if shape = LINE then some (max 0 (degree + 1))
  else if shape = TRIANGLE then some (max (Int.fdiv ((degree + 1) * (degree + 2)) 2) 0)
  else if shape = TETRAHEDRON then
    some (max 0 (Int.fdiv ((degree + 1) * (degree + 2) * (degree + 3)) 6))
  else none

/-- `get_num_members(n)` of the expansion set chosen by `get_expansion_set` (expansions.py:405-417)
for the shape: expansions.py:121-122, :154-155, :214-215, :306-307. -/
def getNumMembers (shape : ℕ) (n : ℕ) : Option ℕ :=
  if shape = POINT then some 1
  else if shape = LINE then some (n + 1)
  else if shape = TRIANGLE then some ((n + 1) * (n + 2) / 2)
  else if shape = TETRAHEDRON then some ((n + 1) * (n + 2) * (n + 3) / 6)
  else none

end FIAT
