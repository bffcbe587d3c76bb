/-
Model of what `element.mapping()` returns, finite_element.py:23-34, :69-71, for the matrix valued elements: one string for every basis function.
-/

namespace FIAT

/-- The mappings of matrix values. -/
inductive MatrixPullBack
  | doubleCovariant
  | doubleContravariant

/-- Element classes. -/
inductive MatrixElementClass
  | regge
  | hellanHerrmannJohnson
  | arnoldWinther
  | arnoldWintherNC

/-- The `mapping` argument of the constructor of `FiniteElement`.  regge.py:97: `"double covariant piola"`; hellan_herrmann_johnson.py:98,
arnold_winther.py:165 and :83: `"double contravariant piola"`. -/
def declaredMatrixMapping : MatrixElementClass → MatrixPullBack
  | .regge => .doubleCovariant
  | .hellanHerrmannJohnson => .doubleContravariant
  | .arnoldWinther => .doubleContravariant
  | .arnoldWintherNC => .doubleContravariant

end FIAT
