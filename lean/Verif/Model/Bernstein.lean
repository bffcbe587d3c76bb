/-
Model of FIAT/bernstein.py.  numpy arrays are functions of their indices; the numbers are elements of a field.
-/
import Verif.Model.Cell
import Verif.Model.Combinat
import Mathlib.LinearAlgebra.Matrix.NonsingularInverse
import Mathlib.Data.Nat.Factorial.Basic

namespace FIAT
section dual

/-- `inverse_topology`, bernstein.py:28-30: a dict comprehension, later items overwrite earlier ones. -/
def inverseTopology (topo : Topology ℕ) : Dict (List ℕ) (ℕ × ℕ) :=
  (topo.flatMap fun p => p.2.map fun q => (q.2, (p.1, q.1))).foldl
    (fun (d : Dict (List ℕ) (ℕ × ℕ)) (kv : List ℕ × (ℕ × ℕ)) => Dict.put d kv.1 kv.2) []

/-- `vertices, = numpy.nonzero(ks)`, bernstein.py:39: the indices of the non-zero entries, in increasing order. -/
def nonzeroIdx (ks : List ℕ) : List ℕ := (List.range ks.length).filter fun i => ks.getD i 0 ≠ 0

/-- `BernsteinDualSet.__init__`, bernstein.py:20-46: the entity dofs and the number of nodes; `none`: `KeyError`. -/
def bernsteinDual (topo : Topology ℕ) (dim degree : ℕ) : Option (EntityIds ℕ × ℕ) := do
  let ids0 : EntityIds ℕ := topo.map fun p => (p.1, p.2.map fun q => (q.1, ([] : List ℕ)))
  let inv := inverseTopology topo
  let ids ← ((mis (dim + 1) degree).zipIdx).foldlM (fun (ids : EntityIds ℕ) (p : List ℕ × ℕ) => do
    let de : ℕ × ℕ ← Dict.get? inv (nonzeroIdx p.1)
    let m : Dict ℕ (List ℕ) ← Dict.get? ids de.1
    let l : List ℕ ← Dict.get? m de.2
    some (Dict.put ids de.1 (Dict.put m de.2 (l ++ [p.2])))) ids0
  some (ids, (mis (dim + 1) degree).length)

end dual

section tabulate
variable {K : Type} [Field K] {d N : ℕ}

/-- `bernstein_db(points, ks, alpha)`, bernstein.py:111-141, for a given `alpha`; `none`: a failed assertion. -/
def bernsteinDb (points : Fin N → Fin (d + 1) → K) (ks alpha : List ℕ) : Option (Fin N → K) :=
  if ks.length ≠ d + 1 ∨ alpha.length ≠ d + 1 then none
  else
    let ls : List ℤ := List.zipWith (fun (k a : ℕ) => (k : ℤ) - (a : ℤ)) ks alpha
    if ls.any (fun k => k < 0) then some fun _ => 0
    else if ls.all (fun k => k = 0) then some fun _ => 1
    else
      let coeff : ℕ := ls.foldl (fun (c : ℕ) (k : ℤ) => c / k.toNat.factorial) ks.sum.factorial
      some fun p => (coeff : K) * ∏ i : Fin (d + 1), points p i ^ (ls.getD i 0).toNat

/-- The index of an entry of the derivative tensor: how often each coordinate occurs, bernstein.py:172-174. -/
def countAlpha (d : ℕ) (ds : List (Fin (d + 1))) : List ℕ :=
  ds.foldl (fun (alpha : List ℕ) (i : Fin (d + 1)) => alpha.set i (alpha.getD i 0 + 1)) (List.replicate (d + 1) 0)

/-- `R2B[:, c].dot(values)`, bernstein.py:183: numpy contracts the second-to-last axis, i.e. the last derivative index (the
last axis is the point). -/
def contractLast (R2B : Matrix (Fin (d + 1)) (Fin (d + 1)) K) (c : Fin (d + 1))
    (values : List (Fin (d + 1)) → Fin N → K) : List (Fin (d + 1)) → Fin N → K :=
  fun ds p => ∑ i, R2B i c * values (ds ++ [i]) p

/-- The loops over `alpha`, bernstein.py:180-183. -/
def contractAlpha (R2B : Matrix (Fin (d + 1)) (Fin (d + 1)) K) (alpha : List ℕ)
    (values : List (Fin (d + 1)) → Fin N → K) : List (Fin (d + 1)) → Fin N → K :=
  alpha.zipIdx.foldl (fun v (kd : ℕ × ℕ) => (contractLast R2B (Fin.ofNat (d + 1) kd.2))^[kd.1] v) values

/-- `bernstein_Dx(points, ks, order, R2B)`, bernstein.py:144-185.  A missing key of `Db_map` would be a `KeyError`
(`bernstein_lookup` shows that there is none); here it reads as 0. -/
def bernsteinDx (points : Fin N → Fin (d + 1) → K) (ks : List ℕ) (order : ℕ)
    (R2B : Matrix (Fin (d + 1)) (Fin (d + 1)) K) : Option (Dict (List ℕ) (Fin N → K)) := do
  let dbMap : Dict (List ℕ) (Fin N → K) ← (mis (d + 1) order).mapM fun alpha =>
    (bernsteinDb points ks alpha).map fun v => (alpha, v)
  let tensor : List (Fin (d + 1)) → Fin N → K := fun ds => (Dict.get? dbMap (countAlpha d ds)).getD 0
  some ((mis d order).map fun alpha => (alpha, contractAlpha R2B alpha tensor []))

/-- `B2R`, bernstein.py:85: the vertices as columns, with a last row of ones. -/
def b2r (verts : Fin (d + 1) → Fin d → K) : Matrix (Fin (d + 1)) (Fin (d + 1)) K :=
  Matrix.of fun i j => (Fin.snoc (α := fun _ => K) (verts j) 1 : Fin (d + 1) → K) i

/-- `B`, bernstein.py:88-89. -/
def baryPoints (R2B : Matrix (Fin (d + 1)) (Fin (d + 1)) K) (cellPoints : Fin N → Fin d → K) :
    Fin N → Fin (d + 1) → K :=
  fun p i => ∑ j, (Fin.snoc (α := fun _ => K) (cellPoints p) 1 : Fin (d + 1) → K) j * R2B i j

open Classical in
/-- `Bernstein.tabulate(order, points)`, bernstein.py:63-108, from line 83 on: `cellPoints` are the points mapped to the cell
(at least one).  The result maps a derivative to its rows; `none`: `LinAlgError` or another exception. -/
noncomputable def bernsteinTabulate (verts : Fin (d + 1) → Fin d → K) (degree order : ℕ) (cellPoints : Fin N → Fin d → K) :
    Option (Dict (List ℕ) (List (Fin N → K))) := do
  let R2B ← if IsUnit (b2r verts).det then some (b2r verts)⁻¹ else none
  let B := baryPoints R2B cellPoints
  let kss := mis (d + 1) degree
  let raw : List (List ((List ℕ × ℕ) × (Fin N → K))) ← (kss.zipIdx).mapM fun (ki : List ℕ × ℕ) => do
    let parts : List (List ((List ℕ × ℕ) × (Fin N → K))) ← (List.range (order + 1)).mapM fun (o : ℕ) => do
      let t : Dict (List ℕ) (Fin N → K) ← bernsteinDx B ki.1 o R2B
      some (t.map fun av => ((av.1, ki.2), av.2))
    some parts.flatten
  let result0 : Dict (List ℕ) (List (Fin N → K)) :=
    (jetKeys d order).map fun alpha => (alpha, List.replicate kss.length fun _ => 0)
  raw.flatten.foldlM (fun (res : Dict (List ℕ) (List (Fin N → K))) (av : (List ℕ × ℕ) × (Fin N → K)) => do
    let rows : List (Fin N → K) ← Dict.get? res av.1.1
    some (Dict.put res av.1.1 (rows.set av.1.2 av.2))) result0

end tabulate
end FIAT
