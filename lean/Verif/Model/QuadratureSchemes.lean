/-
Model of FIAT/quadrature_schemes.py (`create_quadrature`, `_fiat_scheme`, `_kmv_lump_scheme`, `_triangle_scheme`,
`_tetrahedron_scheme`) and of `make_quadrature` (FIAT/quadrature.py:280-308).

The decimal literals of the tables are written as in the code and stand for their decimal values (the code rounds
them to binary floating point).  The function `gj` stands for `compute_gauss_jacobi_points(a, 0, m)`, quadrature.py:325-355.
-/
import Verif.Model.Quadrature
import Verif.Model.CellEq
import Verif.Model.DofLayout

namespace FIAT

section tables

/-- Triangle, degrees 0 and 1, quadrature_schemes.py:332-335. -/
def triTable1 : QRule ℚ (List ℚ) :=
  ⟨[[1.0 / 3.0, 1.0 / 3.0]],
   [0.5]⟩

/-- Triangle, degree 2, quadrature_schemes.py:336-342. -/
def triTable2 : QRule ℚ (List ℚ) :=
  ⟨[[1.0 / 6.0, 1.0 / 6.0],
     [1.0 / 6.0, 2.0 / 3.0],
     [2.0 / 3.0, 1.0 / 6.0]],
   [1.0 / 6.0, 1.0 / 6.0, 1.0 / 6.0]⟩

/-- Triangle, degree 3, quadrature_schemes.py:343-352. -/
def triTable3 : QRule ℚ (List ℚ) :=
  ⟨[[0.659027622374092, 0.231933368553031],
     [0.659027622374092, 0.109039009072877],
     [0.231933368553031, 0.659027622374092],
     [0.231933368553031, 0.109039009072877],
     [0.109039009072877, 0.659027622374092],
     [0.109039009072877, 0.231933368553031]],
   [1.0 / 12.0, 1.0 / 12.0, 1.0 / 12.0, 1.0 / 12.0, 1.0 / 12.0, 1.0 / 12.0]⟩

/-- Triangle, degree 4, quadrature_schemes.py:353-364. -/
def triTable4 : QRule ℚ (List ℚ) :=
  ⟨[[0.816847572980459, 0.091576213509771],
     [0.091576213509771, 0.816847572980459],
     [0.091576213509771, 0.091576213509771],
     [0.108103018168070, 0.445948490915965],
     [0.445948490915965, 0.108103018168070],
     [0.445948490915965, 0.445948490915965]],
   [0.109951743655322 / 2, 0.109951743655322 / 2, 0.109951743655322 / 2, 0.223381589678011 / 2, 0.223381589678011 / 2, 0.223381589678011 / 2]⟩

/-- Triangle, degree 5, quadrature_schemes.py:365-378. -/
def triTable5 : QRule ℚ (List ℚ) :=
  ⟨[[0.33333333333333333, 0.33333333333333333],
     [0.79742698535308720, 0.10128650732345633],
     [0.10128650732345633, 0.79742698535308720],
     [0.10128650732345633, 0.10128650732345633],
     [0.05971587178976981, 0.47014206410511505],
     [0.47014206410511505, 0.05971587178976981],
     [0.47014206410511505, 0.47014206410511505]],
   [0.22500000000000000 / 2, 0.12593918054482717 / 2, 0.12593918054482717 / 2, 0.12593918054482717 / 2, 0.13239415278850616 / 2, 0.13239415278850616 / 2, 0.13239415278850616 / 2]⟩

/-- Triangle, degree 6, quadrature_schemes.py:379-398. -/
def triTable6 : QRule ℚ (List ℚ) :=
  ⟨[[0.873821971016996, 0.063089014491502],
     [0.063089014491502, 0.873821971016996],
     [0.063089014491502, 0.063089014491502],
     [0.501426509658179, 0.249286745170910],
     [0.249286745170910, 0.501426509658179],
     [0.249286745170910, 0.249286745170910],
     [0.636502499121399, 0.310352451033785],
     [0.636502499121399, 0.053145049844816],
     [0.310352451033785, 0.636502499121399],
     [0.310352451033785, 0.053145049844816],
     [0.053145049844816, 0.636502499121399],
     [0.053145049844816, 0.310352451033785]],
   [0.050844906370207 / 2, 0.050844906370207 / 2, 0.050844906370207 / 2, 0.116786275726379 / 2, 0.116786275726379 / 2, 0.116786275726379 / 2, 0.082851075618374 / 2, 0.082851075618374 / 2, 0.082851075618374 / 2, 0.082851075618374 / 2, 0.082851075618374 / 2, 0.082851075618374 / 2]⟩

/-- Tetrahedron, degrees 0 and 1, quadrature_schemes.py:410-413. -/
def tetTable1 : QRule ℚ (List ℚ) :=
  ⟨[[1.0 / 4.0, 1.0 / 4.0, 1.0 / 4.0]],
   [1.0 / 6.0]⟩

/-- Tetrahedron, degree 2, quadrature_schemes.py:414-422. -/
def tetTable2 : QRule ℚ (List ℚ) :=
  ⟨[[0.585410196624969, 0.138196601125011, 0.138196601125011],
     [0.138196601125011, 0.585410196624969, 0.138196601125011],
     [0.138196601125011, 0.138196601125011, 0.585410196624969],
     [0.138196601125011, 0.138196601125011, 0.138196601125011]],
   [1.0 / 24.0, 1.0 / 24.0, 1.0 / 24.0, 1.0 / 24.0]⟩

/-- Tetrahedron, degree 3, quadrature_schemes.py:423-434. -/
def tetTable3 : QRule ℚ (List ℚ) :=
  ⟨[[0.2500000000000000, 0.2500000000000000, 0.2500000000000000],
     [0.5000000000000000, 0.1666666666666666, 0.1666666666666666],
     [0.1666666666666666, 0.5000000000000000, 0.1666666666666666],
     [0.1666666666666666, 0.1666666666666666, 0.5000000000000000],
     [0.1666666666666666, 0.1666666666666666, 0.1666666666666666]],
   [-0.8 / 6, 0.45 / 6, 0.45 / 6, 0.45 / 6, 0.45 / 6]⟩

/-- Tetrahedron, degree 4, quadrature_schemes.py:435-457. -/
def tetTable4 : QRule ℚ (List ℚ) :=
  ⟨[[0.0000000000000000, 0.5000000000000000, 0.5000000000000000],
     [0.5000000000000000, 0.0000000000000000, 0.5000000000000000],
     [0.5000000000000000, 0.5000000000000000, 0.0000000000000000],
     [0.5000000000000000, 0.0000000000000000, 0.0000000000000000],
     [0.0000000000000000, 0.5000000000000000, 0.0000000000000000],
     [0.0000000000000000, 0.0000000000000000, 0.5000000000000000],
     [0.6984197043243866, 0.1005267652252045, 0.1005267652252045],
     [0.1005267652252045, 0.1005267652252045, 0.1005267652252045],
     [0.1005267652252045, 0.1005267652252045, 0.6984197043243866],
     [0.1005267652252045, 0.6984197043243866, 0.1005267652252045],
     [0.0568813795204234, 0.3143728734931922, 0.3143728734931922],
     [0.3143728734931922, 0.3143728734931922, 0.3143728734931922],
     [0.3143728734931922, 0.3143728734931922, 0.0568813795204234],
     [0.3143728734931922, 0.0568813795204234, 0.3143728734931922]],
   [0.0190476190476190 / 6, 0.0190476190476190 / 6, 0.0190476190476190 / 6, 0.0190476190476190 / 6, 0.0190476190476190 / 6, 0.0190476190476190 / 6, 0.0885898247429807 / 6, 0.0885898247429807 / 6, 0.0885898247429807 / 6, 0.0885898247429807 / 6, 0.1328387466855907 / 6, 0.1328387466855907 / 6, 0.1328387466855907 / 6, 0.1328387466855907 / 6]⟩

/-- Tetrahedron, degree 5, quadrature_schemes.py:458-482. -/
def tetTable5 : QRule ℚ (List ℚ) :=
  ⟨[[0.2500000000000000, 0.2500000000000000, 0.2500000000000000],
     [0.0000000000000000, 0.3333333333333333, 0.3333333333333333],
     [0.3333333333333333, 0.3333333333333333, 0.3333333333333333],
     [0.3333333333333333, 0.3333333333333333, 0.0000000000000000],
     [0.3333333333333333, 0.0000000000000000, 0.3333333333333333],
     [0.7272727272727273, 0.0909090909090909, 0.0909090909090909],
     [0.0909090909090909, 0.0909090909090909, 0.0909090909090909],
     [0.0909090909090909, 0.0909090909090909, 0.7272727272727273],
     [0.0909090909090909, 0.7272727272727273, 0.0909090909090909],
     [0.4334498464263357, 0.0665501535736643, 0.0665501535736643],
     [0.0665501535736643, 0.4334498464263357, 0.0665501535736643],
     [0.0665501535736643, 0.0665501535736643, 0.4334498464263357],
     [0.0665501535736643, 0.4334498464263357, 0.4334498464263357],
     [0.4334498464263357, 0.0665501535736643, 0.4334498464263357],
     [0.4334498464263357, 0.4334498464263357, 0.0665501535736643]],
   [0.1817020685825351 / 6, 0.0361607142857143 / 6, 0.0361607142857143 / 6, 0.0361607142857143 / 6, 0.0361607142857143 / 6, 0.0698714945161738 / 6, 0.0698714945161738 / 6, 0.0698714945161738 / 6, 0.0698714945161738 / 6, 0.0656948493683187 / 6, 0.0656948493683187 / 6, 0.0656948493683187 / 6, 0.0656948493683187 / 6, 0.0656948493683187 / 6, 0.0656948493683187 / 6]⟩

/-- Tetrahedron, degree 6, quadrature_schemes.py:483-515. -/
def tetTable6 : QRule ℚ (List ℚ) :=
  ⟨[[0.3561913862225449, 0.2146028712591517, 0.2146028712591517],
     [0.2146028712591517, 0.2146028712591517, 0.2146028712591517],
     [0.2146028712591517, 0.2146028712591517, 0.3561913862225449],
     [0.2146028712591517, 0.3561913862225449, 0.2146028712591517],
     [0.8779781243961660, 0.0406739585346113, 0.0406739585346113],
     [0.0406739585346113, 0.0406739585346113, 0.0406739585346113],
     [0.0406739585346113, 0.0406739585346113, 0.8779781243961660],
     [0.0406739585346113, 0.8779781243961660, 0.0406739585346113],
     [0.0329863295731731, 0.3223378901422757, 0.3223378901422757],
     [0.3223378901422757, 0.3223378901422757, 0.3223378901422757],
     [0.3223378901422757, 0.3223378901422757, 0.0329863295731731],
     [0.3223378901422757, 0.0329863295731731, 0.3223378901422757],
     [0.2696723314583159, 0.0636610018750175, 0.0636610018750175],
     [0.0636610018750175, 0.2696723314583159, 0.0636610018750175],
     [0.0636610018750175, 0.0636610018750175, 0.2696723314583159],
     [0.6030056647916491, 0.0636610018750175, 0.0636610018750175],
     [0.0636610018750175, 0.6030056647916491, 0.0636610018750175],
     [0.0636610018750175, 0.0636610018750175, 0.6030056647916491],
     [0.0636610018750175, 0.2696723314583159, 0.6030056647916491],
     [0.2696723314583159, 0.6030056647916491, 0.0636610018750175],
     [0.6030056647916491, 0.0636610018750175, 0.2696723314583159],
     [0.0636610018750175, 0.6030056647916491, 0.2696723314583159],
     [0.2696723314583159, 0.0636610018750175, 0.6030056647916491],
     [0.6030056647916491, 0.2696723314583159, 0.0636610018750175]],
   [0.0399227502581679 / 6, 0.0399227502581679 / 6, 0.0399227502581679 / 6, 0.0399227502581679 / 6, 0.0100772110553207 / 6, 0.0100772110553207 / 6, 0.0100772110553207 / 6, 0.0100772110553207 / 6, 0.0553571815436544 / 6, 0.0553571815436544 / 6, 0.0553571815436544 / 6, 0.0553571815436544 / 6, 0.0482142857142857 / 6, 0.0482142857142857 / 6, 0.0482142857142857 / 6, 0.0482142857142857 / 6, 0.0482142857142857 / 6, 0.0482142857142857 / 6, 0.0482142857142857 / 6, 0.0482142857142857 / 6, 0.0482142857142857 / 6, 0.0482142857142857 / 6, 0.0482142857142857 / 6, 0.0482142857142857 / 6]⟩


/-- KMV, triangle, degree 2: the weights (7), quadrature_schemes.py:118-127. -/
def kmvTri2Wts : List ℚ :=
  List.replicate 3 (1.0 / 40.0) ++ List.replicate 3 (1.0 / 15.0) ++ List.replicate 1 (9.0 / 40.0)

/-- KMV, tetrahedron, degree 2: the points given by numbers, quadrature_schemes.py:128-154. -/
def kmvTet2Pts : List (List ℚ) :=
  [[0.0, 0.50, 0.50],
   [0.50, 0.0, 0.50],
   [0.50, 0.50, 0.0],
   [0.0, 0.0, 0.50],
   [0.0, 0.50, 0.0],
   [0.50, 0.0, 0.0],
   [0.33333333333333337, 0.3333333333333333, 0.3333333333333333],
   [0.0, 0.3333333333333333, 0.3333333333333333],
   [0.3333333333333333, 0.0, 0.3333333333333333],
   [0.3333333333333333, 0.3333333333333333, 0.0],
   [1 / 4, 1 / 4, 1 / 4]]

/-- KMV, tetrahedron, degree 2: the weights (15), quadrature_schemes.py:128-154. -/
def kmvTet2Wts : List ℚ :=
  List.replicate 4 (17.0 / 5040.0) ++ List.replicate 6 (2.0 / 315.0) ++ List.replicate 4 (9.0 / 560.0) ++ List.replicate 1 (16.0 / 315.0)

/-- KMV, triangle, degree 3: the points given by numbers, quadrature_schemes.py:159-179. -/
def kmvTri3Pts : List (List ℚ) :=
  let alpha : ℚ := 0.2934695559090401
  let beta : ℚ := 0.2073451756635909
  [[1 - alpha, alpha],
   [alpha, 1 - alpha],
   [0.0, 1 - alpha],
   [0.0, alpha],
   [alpha, 0.0],
   [1 - alpha, 0.0],
   [beta, beta],
   [1 - 2 * beta, beta],
   [beta, 1 - 2 * beta]]

/-- KMV, triangle, degree 3: the weights (12), quadrature_schemes.py:159-179. -/
def kmvTri3Wts : List ℚ :=
  List.replicate 3 (0.007436456512410291) ++ List.replicate 6 (0.02442084061702551) ++ List.replicate 3 (0.1103885289202054)

/-- KMV, tetrahedron, degree 3: the points given by numbers, quadrature_schemes.py:180-228. -/
def kmvTet3Pts : List (List ℚ) :=
  let alpha : ℚ := 1 / 6
  [[0, 0.685789657581967, 0.314210342418033],
   [0, 0.314210342418033, 0.685789657581967],
   [0.314210342418033, 0, 0.685789657581967],
   [0.685789657581967, 0, 0.314210342418033],
   [0.685789657581967, 0.314210342418033, 0.0],
   [0.314210342418033, 0.685789657581967, 0.0],
   [0, 0, 0.685789657581967],
   [0, 0, 0.314210342418033],
   [0, 0.314210342418033, 0.0],
   [0, 0.685789657581967, 0.0],
   [0.314210342418033, 0, 0.0],
   [0.685789657581967, 0, 0.0],
   [0.21548220313557542, 0.5690355937288492, 0.21548220313557542],
   [0.21548220313557542, 0.21548220313557542, 0.5690355937288492],
   [0.5690355937288492, 0.21548220313557542, 0.21548220313557542],
   [0.0, 0.5690355937288492, 0.21548220313557542],
   [0.0, 0.21548220313557542, 0.5690355937288492],
   [0.0, 0.21548220313557542, 0.21548220313557542],
   [0.5690355937288492, 0.0, 0.21548220313557542],
   [0.21548220313557542, 0.0, 0.5690355937288492],
   [0.21548220313557542, 0.0, 0.21548220313557542],
   [0.5690355937288492, 0.21548220313557542, 0.0],
   [0.21548220313557542, 0.5690355937288492, 0.0],
   [0.21548220313557542, 0.21548220313557542, 0.0],
   [alpha, alpha, 0.5],
   [0.5, alpha, alpha],
   [alpha, 0.5, alpha],
   [alpha, alpha, alpha]]

/-- KMV, tetrahedron, degree 3: the weights (32), quadrature_schemes.py:180-228. -/
def kmvTet3Wts : List ℚ :=
  List.replicate 4 (0.00068688236002531922325120561367839) ++ List.replicate 12 (0.0015107814913526136472998739890272) ++ List.replicate 12 (0.0050062894680040258624242888174649) ++ List.replicate 4 (0.021428571428571428571428571428571)

/-- KMV, triangle, degree 4: the points given by numbers, quadrature_schemes.py:232-261. -/
def kmvTri4Pts : List (List ℚ) :=
  let alpha : ℚ := 0.2113248654051871
  let beta1 : ℚ := 0.4247639617258106
  let beta2 : ℚ := 0.130791593829745
  [[1 - alpha, alpha],
   [alpha, 1 - alpha],
   [0.0, 1 - alpha],
   [0.0, alpha],
   [alpha, 0.0],
   [1 - alpha, 0.0],
   [beta1, beta1],
   [1 - 2 * beta1, beta1],
   [beta1, 1 - 2 * beta1],
   [beta2, beta2],
   [1 - 2 * beta2, beta2],
   [beta2, 1 - 2 * beta2]]

/-- KMV, triangle, degree 4: the weights (18), quadrature_schemes.py:232-261. -/
def kmvTri4Wts : List ℚ :=
  List.replicate 3 (0.003174603174603175) ++ List.replicate 3 (0.0126984126984127) ++ List.replicate 6 (0.01071428571428571) ++ List.replicate 3 (0.07878121446939182) ++ List.replicate 3 (0.05058386489568756)

/-- KMV, triangle, degree 5: the points given by numbers, quadrature_schemes.py:265-320. -/
def kmvTri5Pts : List (List ℚ) :=
  let alpha1 : ℚ := 0.3632980741536860
  let alpha2 : ℚ := 0.1322645816327140
  let beta1 : ℚ := 0.4578368380791611
  let beta2 : ℚ := 0.2568591072619591
  let beta3 : ℚ := 0.5752768441141011e-1
  let gamma1 : ℚ := 0.7819258362551702e-1
  let delta1 : ℚ := 0.2210012187598900
  [[1 - alpha1, alpha1],
   [alpha1, 1 - alpha1],
   [0.0, 1 - alpha1],
   [0.0, alpha1],
   [alpha1, 0.0],
   [1 - alpha1, 0.0],
   [1 - alpha2, alpha2],
   [alpha2, 1 - alpha2],
   [0.0, 1 - alpha2],
   [0.0, alpha2],
   [alpha2, 0.0],
   [1 - alpha2, 0.0],
   [beta1, beta1],
   [1 - 2 * beta1, beta1],
   [beta1, 1 - 2 * beta1],
   [beta2, beta2],
   [1 - 2 * beta2, beta2],
   [beta2, 1 - 2 * beta2],
   [beta3, beta3],
   [1 - 2 * beta3, beta3],
   [beta3, 1 - 2 * beta3],
   [gamma1, delta1],
   [1 - gamma1 - delta1, delta1],
   [gamma1, 1 - gamma1 - delta1],
   [delta1, gamma1],
   [1 - gamma1 - delta1, gamma1],
   [delta1, 1 - gamma1 - delta1]]

/-- KMV, triangle, degree 5: the weights (30), quadrature_schemes.py:265-320. -/
def kmvTri5Wts : List ℚ :=
  List.replicate 3 (0.7094239706792450e-3) ++ List.replicate 6 (0.6190565003676629e-2) ++ List.replicate 6 (0.3480578640489211e-2) ++ List.replicate 3 (0.3453043037728279e-1) ++ List.replicate 3 (0.4590123763076286e-1) ++ List.replicate 3 (0.1162613545961757e-1) ++ List.replicate 6 (0.2727857596999626e-1)


end tables

/-- A rule with rational data as a rule over a field. -/
def QRule.cast (K : Type) [Field K] (R : QRule ℚ (List ℚ)) : QRule K (List K) :=
  ⟨R.pts.map (List.map fun q : ℚ => (q : K)), R.wts.map fun q : ℚ => (q : K)⟩

/-- A point given by its coordinates, as a vector. -/
def toVec {K : Type} [Zero K] (d : ℕ) (x : List K) : Fin d → K := fun i => (x[(i : ℕ)]?).getD 0

/-- A rule on vectors as a rule on lists of coordinates. -/
def QRule.toLists {K : Type} {d : ℕ} (R : QRule K (Fin d → K)) : QRule K (List K) := ⟨R.pts.map List.ofFn, R.wts⟩

/-- `make_quadrature(ref_el, m)`, quadrature.py:280-308, for an integer `m` (`none`: an exception).  `get_shape()` is
determined by the class; `construct_subelement(1)` of the quadrilateral and the hexahedron is the UFC interval
(reference_element.py:795-807, :855-869). -/
noncomputable def makeQuadrature (gj : ℕ → ℕ → List ℝ) (cls : CellClass) (data : CellData ℝ) (m : ℤ) :
    Option (QRule ℝ (List ℝ)) :=
  if m ≤ 0 then none
  else
    let n := m.toNat
    let line (d : CellData ℝ) : Option (QRule ℝ (List ℝ)) :=
      (gaussLineRule (d.verts.map (toVec 1)) n (gj 0 n)).map QRule.toLists
    match cls with
    | .point => some ⟨[[]], [1]⟩
    | .defaultLine | .ufcInterval => line data
    | .defaultTriangle | .ufcTriangle | .intrepidTriangle =>
      (collapsedTriangleRule (data.verts.map (toVec 2)) n (gj 0 n) (gj 1 n)).map QRule.toLists
    | .defaultTetrahedron | .ufcTetrahedron | .intrepidTetrahedron =>
      (collapsedTetrahedronRule (data.verts.map (toVec 3)) n (gj 0 n) (gj 1 n) (gj 2 n)).map QRule.toLists
    | .ufcQuadrilateral => do
      let r ← line ufcInterval
      tensorQuadrature [r, r]
    | .ufcHexahedron => do
      let r ← line ufcInterval
      tensorQuadrature [r, r, r]
    | .tensorProduct => none

/-- `_fiat_scheme(ref_el, degree)`, quadrature_schemes.py:86-93. -/
noncomputable def fiatScheme (gj : ℕ → ℕ → List ℝ) (cls : CellClass) (data : CellData ℝ) (degree : ℤ) :
    Option (QRule ℝ (List ℝ)) :=
  let numPointsPerAxis := (degree + 1 + 1) / 2
  makeQuadrature gj cls data numPointsPerAxis

/-- The branches with a table of `_triangle_scheme(degree)`, quadrature_schemes.py:332-398. -/
def triangleTable : ℤ → Option (QRule ℚ (List ℚ))
  | 0 | 1 => some triTable1
  | 2 => some triTable2
  | 3 => some triTable3
  | 4 => some triTable4
  | 5 => some triTable5
  | 6 => some triTable6
  | _ => none

/-- `_triangle_scheme(degree)`, quadrature_schemes.py:328-403. -/
noncomputable def triangleScheme (gj : ℕ → ℕ → List ℝ) (degree : ℤ) : Option (QRule ℝ (List ℝ)) :=
  match triangleTable degree with
  | some R => QRule.mk? (R.cast ℝ).pts (R.cast ℝ).wts
  | none => fiatScheme gj .ufcTriangle ufcTriangle degree

/-- The branches with a table of `_tetrahedron_scheme(degree)`, quadrature_schemes.py:410-515. -/
def tetrahedronTable : ℤ → Option (QRule ℚ (List ℚ))
  | 0 | 1 => some tetTable1
  | 2 => some tetTable2
  | 3 => some tetTable3
  | 4 => some tetTable4
  | 5 => some tetTable5
  | 6 => some tetTable6
  | _ => none

/-- `_tetrahedron_scheme(degree)`, quadrature_schemes.py:406-522. -/
noncomputable def tetrahedronScheme (gj : ℕ → ℕ → List ℝ) (degree : ℤ) : Option (QRule ℝ (List ℝ)) :=
  match tetrahedronTable degree with
  | some R => QRule.mk? (R.cast ℝ).pts (R.cast ℝ).wts
  | none => fiatScheme gj .ufcTetrahedron ufcTetrahedron degree

section kmv
variable {K : Type} [Field K]

/-- `ref_el.make_points(dim, entity, order)` as lists of coordinates. -/
def cellPoints (data : CellData K) (d dim entity order : ℕ) : Option (List (List K)) :=
  (makePoints K (data.toSimplex d) dim entity order).map (List.map List.ofFn)

/-- Numbers of the tables in the field. -/
def castPts (l : List (List ℚ)) : List (List K) := l.map (List.map fun q : ℚ => (q : K))

/-- The edge midpoints: `for e in range(3): x.extend(ref_el.make_points(1, e, 2))`, quadrature_schemes.py:120-121, :237-238. -/
def edgeMidpoints (data : CellData K) : Option (List (List K)) := do
  let a ← cellPoints data 2 1 0 2
  let b ← cellPoints data 2 1 1 2
  let c ← cellPoints data 2 1 2 2
  some (a ++ b ++ c)

/-- The points and weights of `_kmv_lump_scheme(ref_el, degree)`, quadrature_schemes.py:96-325; `sd` is the spatial
dimension.  `none`: `ValueError("Dimension not supported")`, or `UnboundLocalError` for degrees other than 1,..,5. -/
def kmvLumpScheme (sd : ℕ) (data : CellData K) (degree : ℤ) : Option (QRule K (List K)) :=
  let cw (l : List ℚ) : List K := l.map fun q : ℚ => (q : K)
  match sd, degree with
  | 2, 1 => QRule.mk? data.verts (cw (List.replicate 3 (1.0 / 6.0)))
  | 3, 1 => QRule.mk? data.verts (cw (List.replicate 4 (1.0 / 24.0)))
  | 2, 2 => do
    let m ← edgeMidpoints data
    let c ← cellPoints data 2 2 0 3
    QRule.mk? (data.verts ++ m ++ c) (cw kmvTri2Wts)
  | 3, 2 => QRule.mk? (data.verts ++ castPts kmvTet2Pts) (cw kmvTet2Wts)
  | 2, 3 => QRule.mk? (data.verts ++ castPts kmvTri3Pts) (cw kmvTri3Wts)
  | 3, 3 => QRule.mk? (data.verts ++ castPts kmvTet3Pts) (cw kmvTet3Wts)
  | 2, 4 => do
    let m ← edgeMidpoints data
    QRule.mk? (data.verts ++ m ++ castPts kmvTri4Pts) (cw kmvTri4Wts)
  | 2, 5 => QRule.mk? (data.verts ++ castPts kmvTri5Pts) (cw kmvTri5Wts)
  | _, _ => none

end kmv

/-- `get_spatial_dimension()` of the simplex classes (0 for the others, which `createLeaf` does not get). -/
def CellClass.sd : CellClass → ℕ
  | .defaultLine | .ufcInterval => 1
  | .defaultTriangle | .ufcTriangle | .intrepidTriangle => 2
  | .defaultTetrahedron | .ufcTetrahedron | .intrepidTetrahedron => 3
  | _ => 0

/-- The scheme names. -/
inductive Scheme where
  | default | canonical | kmv | other
  deriving DecidableEq

/-- A `degree` argument: an integer or a tuple (possibly nested, for products of products). -/
inductive DegArg where
  | int (n : ℤ)
  | tup (l : List DegArg)

/-- `create_quadrature` on a cell that is no product, quadrature_schemes.py:66-83 (`isinstance(ref_el, UFCTriangle)`;
no class derives from it).  A tuple as degree is a `TypeError` of the comparison. -/
noncomputable def createLeaf (gj : ℕ → ℕ → List ℝ) (scheme : Scheme) (cls : CellClass) (data : CellData ℝ) :
    DegArg → Option (QRule ℝ (List ℝ))
  | .tup _ => none
  | .int degree =>
    if degree < 0 then none
    else match scheme with
      | .default =>
        match cls with
        | .ufcTriangle => triangleScheme gj degree
        | .ufcTetrahedron => tetrahedronScheme gj degree
        | _ => fiatScheme gj cls data degree
      | .canonical => fiatScheme gj cls data degree
      | .kmv => kmvLumpScheme cls.sd data degree
      | .other => none

/-- `tuple(degree)`, or `(degree,) * n` if that is a `TypeError`, quadrature_schemes.py:53-56. -/
def DegArg.broadcast (n : ℕ) : DegArg → List DegArg
  | .tup l => l
  | .int d => List.replicate n (.int d)

/-- `create_quadrature` of the attribute `product` (a product of `n` UFC intervals) of a quadrilateral or hexahedron,
quadrature_schemes.py:63-64 and :52-61. -/
noncomputable def createCube (gj : ℕ → ℕ → List ℝ) (scheme : Scheme) (n : ℕ) (deg : DegArg) :
    Option (QRule ℝ (List ℝ)) := do
  let degs := deg.broadcast n
  if degs.length ≠ n then none
  else
    let rules ← degs.mapM (createLeaf gj scheme .ufcInterval ufcInterval)
    tensorQuadrature rules

mutual
/-- `create_quadrature(ref_el, degree, scheme)`, quadrature_schemes.py:38-83. -/
noncomputable def createQuadrature (gj : ℕ → ℕ → List ℝ) (scheme : Scheme) :
    CellObj ℝ → DegArg → Option (QRule ℝ (List ℝ))
  | .mk cls data cells, deg =>
    match cls with
    | .tensorProduct =>
      let degs := deg.broadcast cells.length
      if degs.length ≠ cells.length then none
      else (createAll gj scheme cells degs).bind tensorQuadrature
    | .ufcQuadrilateral => createCube gj scheme 2 deg
    | .ufcHexahedron => createCube gj scheme 3 deg
    | cls => createLeaf gj scheme cls data deg
/-- `[create_quadrature(c, d, scheme) for c, d in zip(ref_el.cells, degree)]`, quadrature_schemes.py:59-60. -/
noncomputable def createAll (gj : ℕ → ℕ → List ℝ) (scheme : Scheme) :
    List (CellObj ℝ) → List DegArg → Option (List (QRule ℝ (List ℝ)))
  | c :: cs, d :: ds =>
    match createQuadrature gj scheme c d with
    | none => none
    | some r => (createAll gj scheme cs ds).map (r :: ·)
  | _, _ => some []
end

end FIAT
