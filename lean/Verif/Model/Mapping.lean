/-
Model of what `element.mapping()` returns, finite_element.py:23-34, :69-71, for the elements on simplices: one string for every basis
function.
-/
import Verif.Model.HdivCurl

namespace FIAT

/-- Element classes. -/
inductive ElementClass
  | lagrange
  | discontinuousLagrange
  | crouzeixRaviart
  | cubicHermite
  | raviartThomas
  | brezziDouglasMarini
  | nedelec
  | nedelecSecondKind
  | bernstein
  | morley
  | argyris
  | bell
  | discontinuousTaylor
  | mardalTaiWinther
  | brezziDouglasFortinMarini
  | gaussLegendre
  | gaussLobattoLegendre
  | gaussRadau

/-- The `mapping` argument with which the class calls the constructor of `FiniteElement`.  lagrange.py:45-49, P0.py:45,
discontinuous_lagrange.py:45-49, crouzeix_raviart.py:70, hermite.py:78, bernstein.py:55, morley.py:57, argyris.py:136, bell.py:76,
discontinuous_taylor.py:49, gauss_legendre.py:38, gauss_lobatto_legendre.py:38 and gauss_radau.py:36 leave it at the default `"affine"` (finite_element.py:23, :112);
raviart_thomas.py:173, brezzi_douglas_marini.py:130, mardal_tai_winther.py:158-161, brezzi_douglas_fortin_marini.py:117:
`"contravariant piola"`; nedelec.py:385, nedelec_second_kind.py:256:
`"covariant piola"`. -/
def declaredMapping : ElementClass → PullBack
  | .lagrange => .affine
  | .gaussLegendre => .affine
  | .gaussLobattoLegendre => .affine
  | .gaussRadau => .affine
  | .discontinuousLagrange => .affine
  | .crouzeixRaviart => .affine
  | .cubicHermite => .affine
  | .raviartThomas => .contravariant
  | .brezziDouglasMarini => .contravariant
  | .nedelec => .covariant
  | .nedelecSecondKind => .covariant
  | .bernstein => .affine
  | .morley => .affine
  | .argyris => .affine
  | .bell => .affine
  | .discontinuousTaylor => .affine
  | .mardalTaiWinther => .contravariant
  | .brezziDouglasFortinMarini => .contravariant

end FIAT
