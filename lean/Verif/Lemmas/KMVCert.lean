/-
Certificates for the unisolvence of the Kong-Mulder-Veldhuizen elements: approximate inverses of the matrices of the values of products
of barycentric coordinates at the points.
-/
import Verif.Model.KMV

namespace FIAT

/-- The barycentric coordinates of a point of the UFC simplex. -/
def baryQ (x : List ℚ) : List ℚ := (1 - x.sum) :: x

/-- The value of a product of powers of the barycentric coordinates. -/
def genVal (e : List ℕ) (x : List ℚ) : ℚ := (List.zipWith (fun (b : ℚ) (n : ℕ) => b ^ n) (baryQ x) e).prod

/-- One entry of the product of the approximate inverse and the matrix of values. -/
def certEntry (b : List ℤ) (xs : List (List ℚ)) (e : List ℕ) : ℚ := (List.zipWith (fun (c : ℤ) (x : List ℚ) => (c : ℚ) * genVal e x) b xs).sum

/-- The product of the approximate inverse `B` and the matrix of values is diagonally dominant. -/
def certOk (xs : List (List ℚ)) (es : List (List ℕ)) (B : List (List ℤ)) : Bool :=
  B.length == es.length && xs.length == es.length && (B.zipIdx.all fun (r : List ℤ × ℕ) => r.1.length == xs.length &&
    decide ((es.zipIdx.map fun (e : List ℕ × ℕ) => if e.2 = r.2 then 0 else |certEntry r.1 xs e.1|).sum <
      |certEntry r.1 xs (es.getD r.2 [])|))

/-- The exponents of the products of barycentric coordinates that span the space, by dimension and degree. -/
def kmvGens : ℕ → ℕ → List (List ℕ)
  | 2, 1 => [[1, 0, 0], [0, 1, 0], [0, 0, 1]]
  | 3, 1 => [[1, 0, 0, 0], [0, 1, 0, 0], [0, 0, 1, 0], [0, 0, 0, 1]]
  | 2, 2 => [[2, 0, 0], [1, 1, 0], [1, 0, 1], [0, 2, 0], [0, 1, 1], [0, 0, 2], [1, 1, 1]]
  | 2, 3 => [[3, 0, 0], [2, 1, 0], [2, 0, 1], [1, 2, 0], [1, 0, 2], [0, 3, 0], [0, 2, 1], [0, 1, 2], [0, 0, 3], [2, 1, 1], [1, 2, 1], [1, 1, 2]]
  | 2, 4 => [[4, 0, 0], [3, 1, 0], [3, 0, 1], [2, 2, 0], [2, 0, 2], [1, 3, 0], [1, 0, 3], [0, 4, 0], [0, 3, 1], [0, 2, 2], [0, 1, 3], [0, 0, 4], [3, 1, 1], [2, 2, 1], [2, 1, 2], [1, 3, 1], [1, 2, 2], [1, 1, 3]]
  | 2, 5 => [[5, 0, 0], [4, 1, 0], [4, 0, 1], [3, 2, 0], [3, 0, 2], [2, 3, 0], [2, 0, 3], [1, 4, 0], [1, 0, 4], [0, 5, 0], [0, 4, 1], [0, 3, 2], [0, 2, 3], [0, 1, 4], [0, 0, 5], [5, 1, 1], [4, 2, 1], [4, 1, 2], [3, 3, 1], [3, 2, 2], [3, 1, 3], [2, 4, 1], [2, 3, 2], [2, 2, 3], [2, 1, 4], [1, 5, 1], [1, 4, 2], [1, 3, 3], [1, 2, 4], [1, 1, 5]]
  | 3, 2 => [[2, 0, 0, 0], [1, 1, 0, 0], [1, 0, 1, 0], [1, 0, 0, 1], [0, 2, 0, 0], [0, 1, 1, 0], [0, 1, 0, 1], [0, 0, 2, 0], [0, 0, 1, 1], [0, 0, 0, 2], [1, 1, 1, 0], [1, 1, 0, 1], [1, 0, 1, 1], [0, 1, 1, 1], [1, 1, 1, 1]]
  | 3, 3 => [[3, 0, 0, 0], [2, 1, 0, 0], [2, 0, 1, 0], [2, 0, 0, 1], [1, 2, 0, 0], [1, 0, 2, 0], [1, 0, 0, 2], [0, 3, 0, 0], [0, 2, 1, 0], [0, 2, 0, 1], [0, 1, 2, 0], [0, 1, 0, 2], [0, 0, 3, 0], [0, 0, 2, 1], [0, 0, 1, 2], [0, 0, 0, 3], [2, 1, 1, 0], [2, 1, 0, 1], [2, 0, 1, 1], [1, 2, 1, 0], [1, 2, 0, 1], [1, 1, 2, 0], [1, 1, 0, 2], [1, 0, 2, 1], [1, 0, 1, 2], [0, 2, 1, 1], [0, 1, 2, 1], [0, 1, 1, 2], [2, 1, 1, 1], [1, 2, 1, 1], [1, 1, 2, 1], [1, 1, 1, 2]]
  | _, _ => []

/-- Approximate inverses (times 10). -/
def kmvInv : ℕ → ℕ → List (List ℤ)
  | 2, 1 => [
    [10, 0, 0],
    [0, 10, 0],
    [0, 0, 10]]
  | 3, 1 => [
    [10, 0, 0, 0],
    [0, 10, 0, 0],
    [0, 0, 10, 0],
    [0, 0, 0, 10]]
  | 2, 2 => [
    [10, 0, 0, 0, 0, 0, 0],
    [-10, -10, 0, 0, 0, 40, 0],
    [-10, 0, -10, 0, 40, 0, 0],
    [0, 10, 0, 0, 0, 0, 0],
    [0, -10, -10, 40, 0, 0, 0],
    [0, 0, 10, 0, 0, 0, 0],
    [30, 30, 30, -120, -120, -120, 270]]
  | 2, 3 => [
    [10, 0, 0, 0, 0, 0, 0, 0, 0, 0, 0, 0],
    [-28, 10, 0, 0, 0, 0, 0, 82, -34, 0, 0, 0],
    [-28, 0, 10, 0, 0, -34, 82, 0, 0, 0, 0, 0],
    [10, -28, 0, 0, 0, 0, 0, -34, 82, 0, 0, 0],
    [10, 0, -28, 0, 0, 82, -34, 0, 0, 0, 0, 0],
    [0, 10, 0, 0, 0, 0, 0, 0, 0, 0, 0, 0],
    [0, -28, 10, 82, -34, 0, 0, 0, 0, 0, 0, 0],
    [0, 10, -28, -34, 82, 0, 0, 0, 0, 0, 0, 0],
    [0, 0, 10, 0, 0, 0, 0, 0, 0, 0, 0, 0],
    [122, -28, -28, 65, 65, 148, -415, -415, 148, 833, -218, -218],
    [-28, 122, -28, -415, 148, 65, 65, 148, -415, -218, 833, -218],
    [-28, -28, 122, 148, -415, -415, 148, 65, 65, -218, -218, 833]]
  | 2, 4 => [
    [10, 0, 0, 0, 0, 0, 0, 0, 0, 0, 0, 0, 0, 0, 0, 0, 0, 0],
    [-50, -10, 0, 0, 0, -80, 0, 0, 0, 0, 142, 38, 0, 0, 0, 0, 0, 0],
    [-50, 0, -10, 0, -80, 0, 0, 0, 38, 142, 0, 0, 0, 0, 0, 0, 0, 0],
    [50, 50, 0, 0, 0, 320, 0, 0, 0, 0, -180, -180, 0, 0, 0, 0, 0, 0],
    [50, 0, 50, 0, 320, 0, 0, 0, -180, -180, 0, 0, 0, 0, 0, 0, 0, 0],
    [-10, -50, 0, 0, 0, -80, 0, 0, 0, 0, 38, 142, 0, 0, 0, 0, 0, 0],
    [-10, 0, -50, 0, -80, 0, 0, 0, 142, 38, 0, 0, 0, 0, 0, 0, 0, 0],
    [0, 10, 0, 0, 0, 0, 0, 0, 0, 0, 0, 0, 0, 0, 0, 0, 0, 0],
    [0, -50, -10, -80, 0, 0, 142, 38, 0, 0, 0, 0, 0, 0, 0, 0, 0, 0],
    [0, 50, 50, 320, 0, 0, -180, -180, 0, 0, 0, 0, 0, 0, 0, 0, 0, 0],
    [0, -10, -50, -80, 0, 0, 38, 142, 0, 0, 0, 0, 0, 0, 0, 0, 0, 0],
    [0, 0, 10, 0, 0, 0, 0, 0, 0, 0, 0, 0, 0, 0, 0, 0, 0, 0],
    [260, 50, 50, 0, 560, 560, -90, -90, -252, -1188, -1188, -252, 135, -463, -463, 2085, 203, 203],
    [-170, -170, -20, 80, 80, -2240, 738, -198, -198, 738, 1260, 1260, -597, -597, 3373, -1883, -1883, 667],
    [-170, -20, -170, 80, -2240, 80, -198, 738, 1260, 1260, 738, -198, -597, 3373, -597, -1883, 667, -1883],
    [50, 260, 50, 560, 0, 560, -1188, -252, -90, -90, -252, -1188, -463, 135, -463, 203, 2085, 203],
    [-20, -170, -170, -2240, 80, 80, 1260, 1260, 738, -198, -198, 738, 3373, -597, -597, 667, -1883, -1883],
    [50, 50, 260, 560, 560, 0, -252, -1188, -1188, -252, -90, -90, -463, -463, 135, 203, 203, 2085]]
  | 2, 5 => [
    [10, 0, 0, 0, 0, 0, 0, 0, 0, 0, 0, 0, 0, 0, 0, 0, 0, 0, 0, 0, 0, 0, 0, 0, 0, 0, 0, 0, 0, 0],
    [-90, 10, 0, 0, 0, 0, 0, -99, 57, 0, 0, 0, 0, 204, -31, 0, 0, 0, 0, 0, 0, 0, 0, 0, 0, 0, 0, 0, 0, 0],
    [-90, 0, 10, 0, 0, 57, -99, 0, 0, 0, 0, -31, 204, 0, 0, 0, 0, 0, 0, 0, 0, 0, 0, 0, 0, 0, 0, 0, 0, 0],
    [176, -90, 0, 0, 0, 0, 0, 722, -479, 0, 0, 0, 0, -505, 276, 0, 0, 0, 0, 0, 0, 0, 0, 0, 0, 0, 0, 0, 0, 0],
    [176, 0, -90, 0, 0, -479, 722, 0, 0, 0, 0, 276, -505, 0, 0, 0, 0, 0, 0, 0, 0, 0, 0, 0, 0, 0, 0, 0, 0, 0],
    [-90, 176, 0, 0, 0, 0, 0, -479, 722, 0, 0, 0, 0, 276, -505, 0, 0, 0, 0, 0, 0, 0, 0, 0, 0, 0, 0, 0, 0, 0],
    [-90, 0, 176, 0, 0, 722, -479, 0, 0, 0, 0, -505, 276, 0, 0, 0, 0, 0, 0, 0, 0, 0, 0, 0, 0, 0, 0, 0, 0, 0],
    [10, -90, 0, 0, 0, 0, 0, 57, -99, 0, 0, 0, 0, -31, 204, 0, 0, 0, 0, 0, 0, 0, 0, 0, 0, 0, 0, 0, 0, 0],
    [10, 0, -90, 0, 0, -99, 57, 0, 0, 0, 0, 204, -31, 0, 0, 0, 0, 0, 0, 0, 0, 0, 0, 0, 0, 0, 0, 0, 0, 0],
    [0, 10, 0, 0, 0, 0, 0, 0, 0, 0, 0, 0, 0, 0, 0, 0, 0, 0, 0, 0, 0, 0, 0, 0, 0, 0, 0, 0, 0, 0],
    [0, -90, 10, -99, 57, 0, 0, 0, 0, 204, -31, 0, 0, 0, 0, 0, 0, 0, 0, 0, 0, 0, 0, 0, 0, 0, 0, 0, 0, 0],
    [0, 176, -90, 722, -479, 0, 0, 0, 0, -505, 276, 0, 0, 0, 0, 0, 0, 0, 0, 0, 0, 0, 0, 0, 0, 0, 0, 0, 0, 0],
    [0, -90, 176, -479, 722, 0, 0, 0, 0, 276, -505, 0, 0, 0, 0, 0, 0, 0, 0, 0, 0, 0, 0, 0, 0, 0, 0, 0, 0, 0],
    [0, 10, -90, 57, -99, 0, 0, 0, 0, -31, 204, 0, 0, 0, 0, 0, 0, 0, 0, 0, 0, 0, 0, 0, 0, 0, 0, 0, 0, 0],
    [0, 0, 10, 0, 0, 0, 0, 0, 0, 0, 0, 0, 0, 0, 0, 0, 0, 0, 0, 0, 0, 0, 0, 0, 0, 0, 0, 0, 0, 0],
    [-428, -229, -229, -13, -13, -1117, 2061, 2061, -1117, -89, -89, 590, -4780, -4780, 590, 51, 481, 481, 345, -136, -136, 9534, 207, 207, -1444, 84, -266, -1444, -266, 84],
    [4704, 2290, -23, -342, 810, 2650, -5146, -11992, 7220, 2727, -1249, -1599, 15158, 8770, -3646, -744, 3000, -11806, -4410, 2546, 981, -34804, -5915, 2758, -2334, -1859, -2654, 28572, 7152, -115],
    [4704, -23, 2290, 810, -342, 7220, -11992, -5146, 2650, -1249, 2727, -3646, 8770, 15158, -1599, -744, -11806, 3000, -4410, 981, 2546, -34804, 2758, -5915, 28572, -115, 7152, -2334, -2654, -1859],
    [-6229, -6229, -1227, 1642, -21, -21, 1642, -3129, -3129, -12253, -617, -617, -12253, 1061, 1061, -579, -579, 40253, -4542, -4542, 4541, 28507, 28507, 4763, 6367, 6367, -2552, -31319, -31319, -2552],
    [-9648, 4319, 4319, -6479, -6479, -17502, 30427, 30427, -17502, 11413, 11413, 11995, -28306, -28306, 11995, 13617, -16951, -16951, 66043, -24560, -24560, 80434, -34619, -34619, -39607, 7677, 27919, -39607, 27919, 7677],
    [-6229, -1227, -6229, -21, 1642, -3129, -3129, 1642, -21, -617, -12253, 1061, 1061, -12253, -617, -579, 40253, -579, -4542, 4541, -4542, 28507, 4763, 28507, -31319, -2552, -31319, 6367, -2552, 6367],
    [2290, 4704, -23, -5146, 2650, 810, -342, 7220, -11992, 15158, -1599, -1249, 2727, -3646, 8770, 3000, -744, -11806, 2546, -4410, 981, -5915, -34804, 2758, -1859, -2334, -115, 7152, 28572, -2654],
    [4319, -9648, 4319, 30427, -17502, -6479, -6479, -17502, 30427, -28306, 11995, 11413, 11413, 11995, -28306, -16951, 13617, -16951, -24560, 66043, -24560, -34619, 80434, -34619, 7677, -39607, 7677, 27919, -39607, 27919],
    [4319, 4319, -9648, -17502, 30427, 30427, -17502, -6479, -6479, 11995, -28306, -28306, 11995, 11413, 11413, -16951, -16951, 13617, -24560, -24560, 66043, -34619, -34619, 80434, 27919, 27919, -39607, 7677, 7677, -39607],
    [2290, -23, 4704, 2650, -5146, -11992, 7220, -342, 810, -1599, 15158, 8770, -3646, 2727, -1249, 3000, -11806, -744, 2546, 981, -4410, -5915, 2758, -34804, 7152, -2654, 28572, -1859, -115, -2334],
    [-229, -428, -229, 2061, -1117, -13, -13, -1117, 2061, -4780, 590, -89, -89, 590, -4780, 481, 51, 481, -136, 345, -136, 207, 9534, 207, 84, -1444, 84, -266, -1444, -266],
    [-23, 4704, 2290, -11992, 7220, -342, 810, 2650, -5146, 8770, -3646, 2727, -1249, -1599, 15158, -11806, -744, 3000, 981, -4410, 2546, 2758, -34804, -5915, -115, 28572, -1859, -2654, -2334, 7152],
    [-1227, -6229, -6229, -3129, -3129, 1642, -21, -21, 1642, 1061, 1061, -12253, -617, -617, -12253, 40253, -579, -579, 4541, -4542, -4542, 4763, 28507, 28507, -2552, -31319, 6367, -2552, 6367, -31319],
    [-23, 2290, 4704, 7220, -11992, -5146, 2650, 810, -342, -3646, 8770, 15158, -1599, -1249, 2727, -11806, 3000, -744, 981, 2546, -4410, 2758, -5915, -34804, -2654, 7152, -2334, -115, -1859, 28572],
    [-229, -229, -428, -1117, 2061, 2061, -1117, -13, -13, 590, -4780, -4780, 590, -89, -89, 481, 481, 51, -136, -136, 345, 207, 207, 9534, -266, -266, -1444, 84, 84, -1444]]
  | 3, 2 => [
    [10, 0, 0, 0, 0, 0, 0, 0, 0, 0, 0, 0, 0, 0, 0],
    [-10, -10, 0, 0, 0, 0, 0, 0, 0, 40, 0, 0, 0, 0, 0],
    [-10, 0, -10, 0, 0, 0, 0, 0, 40, 0, 0, 0, 0, 0, 0],
    [-10, 0, 0, -10, 0, 0, 0, 40, 0, 0, 0, 0, 0, 0, 0],
    [0, 10, 0, 0, 0, 0, 0, 0, 0, 0, 0, 0, 0, 0, 0],
    [0, -10, -10, 0, 0, 0, 40, 0, 0, 0, 0, 0, 0, 0, 0],
    [0, -10, 0, -10, 0, 40, 0, 0, 0, 0, 0, 0, 0, 0, 0],
    [0, 0, 10, 0, 0, 0, 0, 0, 0, 0, 0, 0, 0, 0, 0],
    [0, 0, -10, -10, 40, 0, 0, 0, 0, 0, 0, 0, 0, 0, 0],
    [0, 0, 0, 10, 0, 0, 0, 0, 0, 0, 0, 0, 0, 0, 0],
    [30, 30, 30, 0, 0, 0, -120, 0, -120, -120, 0, 0, 0, 270, 0],
    [30, 30, 0, 30, 0, -120, 0, -120, 0, -120, 0, 0, 270, 0, 0],
    [30, 0, 30, 30, -120, 0, 0, -120, -120, 0, 0, 270, 0, 0, 0],
    [0, 30, 30, 30, -120, -120, -120, 0, 0, 0, 270, 0, 0, 0, 0],
    [-40, -40, -40, -40, 320, 320, 320, 320, 320, 320, -1080, -1080, -1080, -1080, 2560]]
  | 3, 3 => [
    [10, 0, 0, 0, 0, 0, 0, 0, 0, 0, 0, 0, 0, 0, 0, 0, 0, 0, 0, 0, 0, 0, 0, 0, 0, 0, 0, 0, 0, 0, 0, 0],
    [-26, 10, 0, 0, 0, 0, 0, 0, 0, 0, 0, 0, 0, 0, 86, -39, 0, 0, 0, 0, 0, 0, 0, 0, 0, 0, 0, 0, 0, 0, 0, 0],
    [-26, 0, 10, 0, 0, 0, 0, 0, 0, 0, 0, 0, 86, -39, 0, 0, 0, 0, 0, 0, 0, 0, 0, 0, 0, 0, 0, 0, 0, 0, 0, 0],
    [-26, 0, 0, 10, 0, 0, 0, 0, 0, 0, -39, 86, 0, 0, 0, 0, 0, 0, 0, 0, 0, 0, 0, 0, 0, 0, 0, 0, 0, 0, 0, 0],
    [10, -26, 0, 0, 0, 0, 0, 0, 0, 0, 0, 0, 0, 0, -39, 86, 0, 0, 0, 0, 0, 0, 0, 0, 0, 0, 0, 0, 0, 0, 0, 0],
    [10, 0, -26, 0, 0, 0, 0, 0, 0, 0, 0, 0, -39, 86, 0, 0, 0, 0, 0, 0, 0, 0, 0, 0, 0, 0, 0, 0, 0, 0, 0, 0],
    [10, 0, 0, -26, 0, 0, 0, 0, 0, 0, 86, -39, 0, 0, 0, 0, 0, 0, 0, 0, 0, 0, 0, 0, 0, 0, 0, 0, 0, 0, 0, 0],
    [0, 10, 0, 0, 0, 0, 0, 0, 0, 0, 0, 0, 0, 0, 0, 0, 0, 0, 0, 0, 0, 0, 0, 0, 0, 0, 0, 0, 0, 0, 0, 0],
    [0, -26, 10, 0, 0, 0, 0, 0, 86, -39, 0, 0, 0, 0, 0, 0, 0, 0, 0, 0, 0, 0, 0, 0, 0, 0, 0, 0, 0, 0, 0, 0],
    [0, -26, 0, 10, 0, 0, -39, 86, 0, 0, 0, 0, 0, 0, 0, 0, 0, 0, 0, 0, 0, 0, 0, 0, 0, 0, 0, 0, 0, 0, 0, 0],
    [0, 10, -26, 0, 0, 0, 0, 0, -39, 86, 0, 0, 0, 0, 0, 0, 0, 0, 0, 0, 0, 0, 0, 0, 0, 0, 0, 0, 0, 0, 0, 0],
    [0, 10, 0, -26, 0, 0, 86, -39, 0, 0, 0, 0, 0, 0, 0, 0, 0, 0, 0, 0, 0, 0, 0, 0, 0, 0, 0, 0, 0, 0, 0, 0],
    [0, 0, 10, 0, 0, 0, 0, 0, 0, 0, 0, 0, 0, 0, 0, 0, 0, 0, 0, 0, 0, 0, 0, 0, 0, 0, 0, 0, 0, 0, 0, 0],
    [0, 0, -26, 10, 86, -39, 0, 0, 0, 0, 0, 0, 0, 0, 0, 0, 0, 0, 0, 0, 0, 0, 0, 0, 0, 0, 0, 0, 0, 0, 0, 0],
    [0, 0, 10, -26, -39, 86, 0, 0, 0, 0, 0, 0, 0, 0, 0, 0, 0, 0, 0, 0, 0, 0, 0, 0, 0, 0, 0, 0, 0, 0, 0, 0],
    [0, 0, 0, 10, 0, 0, 0, 0, 0, 0, 0, 0, 0, 0, 0, 0, 0, 0, 0, 0, 0, 0, 0, 0, 0, 0, 0, 0, 0, 0, 0, 0],
    [107, -26, -26, 0, 0, 0, 0, 0, 64, 64, 0, 0, -415, 165, -415, 165, 0, 0, 0, 0, 0, 0, 0, 0, 0, -231, -231, 840, 0, 0, 0, 0],
    [107, -26, 0, -26, 0, 0, 64, 64, 0, 0, 165, -415, 0, 0, -415, 165, 0, 0, 0, 0, 0, 0, -231, -231, 840, 0, 0, 0, 0, 0, 0, 0],
    [107, 0, -26, -26, 64, 64, 0, 0, 0, 0, 165, -415, -415, 165, 0, 0, 0, 0, 0, -231, -231, 840, 0, 0, 0, 0, 0, 0, 0, 0, 0, 0],
    [-26, 107, -26, 0, 0, 0, 0, 0, -415, 165, 0, 0, 64, 64, 165, -415, 0, 0, 0, 0, 0, 0, 0, 0, 0, 840, -231, -231, 0, 0, 0, 0],
    [-26, 107, 0, -26, 0, 0, 165, -415, 0, 0, 64, 64, 0, 0, 165, -415, 0, 0, 0, 0, 0, 0, 840, -231, -231, 0, 0, 0, 0, 0, 0, 0],
    [-26, -26, 107, 0, 0, 0, 0, 0, 165, -415, 0, 0, 165, -415, 64, 64, 0, 0, 0, 0, 0, 0, 0, 0, 0, -231, 840, -231, 0, 0, 0, 0],
    [-26, -26, 0, 107, 0, 0, -415, 165, 0, 0, -415, 165, 0, 0, 64, 64, 0, 0, 0, 0, 0, 0, -231, 840, -231, 0, 0, 0, 0, 0, 0, 0],
    [-26, 0, 107, -26, -415, 165, 0, 0, 0, 0, 64, 64, 165, -415, 0, 0, 0, 0, 0, 840, -231, -231, 0, 0, 0, 0, 0, 0, 0, 0, 0, 0],
    [-26, 0, -26, 107, 165, -415, 0, 0, 0, 0, -415, 165, 64, 64, 0, 0, 0, 0, 0, -231, 840, -231, 0, 0, 0, 0, 0, 0, 0, 0, 0, 0],
    [0, 107, -26, -26, 64, 64, 165, -415, -415, 165, 0, 0, 0, 0, 0, 0, -231, -231, 840, 0, 0, 0, 0, 0, 0, 0, 0, 0, 0, 0, 0, 0],
    [0, -26, 107, -26, -415, 165, 64, 64, 165, -415, 0, 0, 0, 0, 0, 0, 840, -231, -231, 0, 0, 0, 0, 0, 0, 0, 0, 0, 0, 0, 0, 0],
    [0, -26, -26, 107, 165, -415, -415, 165, 64, 64, 0, 0, 0, 0, 0, 0, -231, 840, -231, 0, 0, 0, 0, 0, 0, 0, 0, 0, 0, 0, 0, 0],
    [-259, 55, 55, 55, -261, -261, -261, -261, -261, -261, -623, 1836, 1836, -623, 1836, -623, 631, 631, 631, 1258, 1258, -5165, 1258, 1258, -5165, 1258, 1258, -5165, -2160, -2160, -2160, 10800],
    [55, -259, 55, 55, -261, -261, -623, 1836, 1836, -623, -261, -261, -261, -261, -623, 1836, 1258, 1258, -5165, 631, 631, 631, -5165, 1258, 1258, -5165, 1258, 1258, -2160, 10800, -2160, -2160],
    [55, 55, -259, 55, 1836, -623, -261, -261, -623, 1836, -261, -261, -623, 1836, -261, -261, -5165, 1258, 1258, -5165, 1258, 1258, 631, 631, 631, 1258, -5165, 1258, -2160, -2160, 10800, -2160],
    [55, 55, 55, -259, -623, 1836, 1836, -623, -261, -261, 1836, -623, -261, -261, -261, -261, 1258, -5165, 1258, 1258, -5165, 1258, 1258, -5165, 1258, 631, 631, 631, 10800, -2160, -2160, -2160]]
  | _, _ => []

/-- The vertices of the UFC simplices. -/
def kmvVerts (sd : ℕ) : List (List ℚ) := if sd = 2 then [[0, 0], [1, 0], [0, 1]] else [[0, 0, 0], [1, 0, 0], [0, 1, 0], [0, 0, 1]]

/-- The points of the KMV rules on the UFC simplices. -/
def kmvPts : ℕ → ℕ → List (List ℚ)
  | 2, 1 => kmvVerts 2
  | 3, 1 => kmvVerts 3
  | 2, 2 => kmvVerts 2 ++ [[1 / 2, 1 / 2], [0, 1 / 2], [1 / 2, 0]] ++ [[1 / 3, 1 / 3]]
  | 3, 2 => kmvVerts 3 ++ kmvTet2Pts
  | 2, 3 => kmvVerts 2 ++ kmvTri3Pts
  | 3, 3 => kmvVerts 3 ++ kmvTet3Pts
  | 2, 4 => kmvVerts 2 ++ [[1 / 2, 1 / 2], [0, 1 / 2], [1 / 2, 0]] ++ kmvTri4Pts
  | 2, 5 => kmvVerts 2 ++ kmvTri5Pts
  | _, _ => []

theorem kmv_cert21 : certOk (kmvPts 2 1) (kmvGens 2 1) (kmvInv 2 1) = true := by decide +kernel
theorem kmv_cert31 : certOk (kmvPts 3 1) (kmvGens 3 1) (kmvInv 3 1) = true := by decide +kernel
theorem kmv_cert22 : certOk (kmvPts 2 2) (kmvGens 2 2) (kmvInv 2 2) = true := by decide +kernel
theorem kmv_cert23 : certOk (kmvPts 2 3) (kmvGens 2 3) (kmvInv 2 3) = true := by decide +kernel
theorem kmv_cert24 : certOk (kmvPts 2 4) (kmvGens 2 4) (kmvInv 2 4) = true := by decide +kernel
theorem kmv_cert25 : certOk (kmvPts 2 5) (kmvGens 2 5) (kmvInv 2 5) = true := by decide +kernel
theorem kmv_cert32 : certOk (kmvPts 3 2) (kmvGens 3 2) (kmvInv 3 2) = true := by decide +kernel
theorem kmv_cert33 : certOk (kmvPts 3 3) (kmvGens 3 3) (kmvInv 3 3) = true := by decide +kernel

end FIAT
