/-
Model of FIAT/expansions.py: `jrc` (:18-22), `PointExpansionSet` (:112-138), `LineExpansionSet` (:141-193),
`TriangleExpansionSet` (:196-280), `TetrahedronExpansionSet` (:283-387) and `_tabulate_dpts` (:25-92) for orders 0
and 1.

Floating-point numbers are reals.  `_tabulate` of the triangle and the tetrahedron is called with numbers, with numpy
arrays and with sympy symbols: the coordinates are elements of a commutative algebra `A` over the reals.  A list with
`None` entries is a `List (Option A)`.  The arrays of the line are modelled without the dtype `type(pts[0][0])` (:161),
which truncates when the points are given as integers.
-/
import Verif.Model.Jacobi
import Verif.Model.Quadrature
import Mathlib.Algebra.MvPolynomial.PDeriv

namespace FIAT
section

/-- `jrc(a, b, n)`, expansions.py:18-22. -/
noncomputable def jrc (a b n : ℝ) : ℝ × ℝ × ℝ :=
  ((2 * n + 1 + a + b) * (2 * n + 2 + a + b) / (2 * (n + 1) * (n + 1 + a + b)),
   (a * a - b * b) * (2 * n + 1 + a + b) / (2 * (n + 1) * (2 * n + a + b) * (n + 1 + a + b)),
   (n + a) * (n + b) * (2 * n + 2 + a + b) / ((n + 1) * (n + 1 + a + b) * (2 * n + a + b)))

variable {A : Type} [CommRing A] [Algebra ℝ A]

local notation "↟" c => algebraMap ℝ A c

/-- The list `results`. -/
abbrev Slots (A : Type) := List (Option A)

/-- Use of `results[i]` in an expression: an `IndexError`, or a `TypeError` if the entry is still `None`. -/
def Slots.rd (r : Slots A) (i : ℕ) : Option A := (r[i]?).join

/-- `results[i] = v`; `none` is an `IndexError`. -/
def Slots.wr (r : Slots A) (i : ℕ) (v : A) : Option (Slots A) :=
  if i < r.length then some (r.set i (some v)) else none

/-- `ref_pts[i]`, expansions.py:221-223, :305-307. -/
noncomputable def refPt {d : ℕ} (M : Matrix (Fin d) (Fin d) ℝ) (b : Fin d → ℝ) (pts : Fin d → A) (i : Fin d) : A :=
  (∑ j, (↟ (M i j)) * pts j) + ↟ (b i)

/-- `idx(p, q)`, expansions.py:225-226. -/
def idx2 (p q : ℕ) : ℕ := (p + q) * (p + q + 1) / 2 + q

/-- `idx(p, q, r)`, expansions.py:309-310. -/
def idx3 (p q r : ℕ) : ℕ := (p + q + r) * (p + q + r + 1) * (p + q + r + 2) / 6 + (q + r) * (q + r + 1) / 2 + r

/-- `TriangleExpansionSet._tabulate(n, pts)`, expansions.py:218-262, with the affine map `M`, `b` of the constructor. -/
noncomputable def triTabulate (M : Matrix (Fin 2) (Fin 2) ℝ) (b : Fin 2 → ℝ) (n : ℕ) (pts : Fin 2 → A) :
    Option (Slots A) := do
  let ref := refPt M b pts
  let results : Slots A := List.replicate ((n + 1) * (n + 2) / 2) none
  let results ← results.wr 0 (1 + pts 0 - pts 0 + pts 1 - pts 1)
  if n = 0 then some results
  else
    let x := ref 0
    let y := ref 1
    let f1 := (↟ (1 / 2)) * (1 + (↟ 2) * x + y)
    let f2 := (↟ (1 / 2)) * (1 - y)
    let f3 := f2 ^ 2
    let results ← results.wr (idx2 1 0) f1
    let results ← (List.range' 1 (n - 1)).foldlM (fun (results : Slots A) (p : ℕ) => do
      let a : ℝ := (2 * p + 1) / (1 + p)
      let u ← results.rd (idx2 p 0)
      let v ← results.rd (idx2 (p - 1) 0)
      results.wr (idx2 (p + 1) 0) ((↟ a) * f1 * u - (↟ (p / (1 + p) : ℝ)) * f3 * v)) results
    let results ← (List.range n).foldlM (fun (results : Slots A) (p : ℕ) => do
      let u ← results.rd (idx2 p 0)
      results.wr (idx2 p 1) ((↟ (1 / 2)) * ((↟ (1 + 2 * p : ℝ)) + (↟ (3 + 2 * p : ℝ)) * y) * u)) results
    let results ← (List.range (n - 1)).foldlM (fun (results : Slots A) (p : ℕ) =>
      (List.range' 1 (n - p - 1)).foldlM (fun (results : Slots A) (q : ℕ) => do
        let c := jrc (2 * p + 1) 0 q
        let u ← results.rd (idx2 p q)
        let v ← results.rd (idx2 p (q - 1))
        results.wr (idx2 p (q + 1)) (((↟ c.1) * y + ↟ c.2.1) * u - (↟ c.2.2) * v)) results) results
    (List.range (n + 1)).foldlM (fun (results : Slots A) (p : ℕ) =>
      (List.range (n - p + 1)).foldlM (fun (results : Slots A) (q : ℕ) => do
        let u ← results.rd (idx2 p q)
        results.wr (idx2 p q) (u * ↟ (Real.sqrt ((p + 1 / 2) * (p + q + 1))))) results) results

/-- `TetrahedronExpansionSet._tabulate(n, pts)`, expansions.py:302-370. -/
noncomputable def tetTabulate (M : Matrix (Fin 3) (Fin 3) ℝ) (b : Fin 3 → ℝ) (n : ℕ) (pts : Fin 3 → A) :
    Option (Slots A) := do
  let ref := refPt M b pts
  let results : Slots A := List.replicate ((n + 1) * (n + 2) * (n + 3) / 6) none
  let results ← results.wr 0 (1 + pts 0 - pts 0 + pts 1 - pts 1 + pts 2 - pts 2)
  if n = 0 then some results
  else
    let x := ref 0
    let y := ref 1
    let z := ref 2
    let factor1 := (↟ (1 / 2)) * ((↟ 2) + (↟ 2) * x + y + z)
    let factor2 := ((↟ (1 / 2)) * (y + z)) ^ 2
    let factor3 := (↟ (1 / 2)) * (1 + (↟ 2) * y + z)
    let factor4 := (↟ (1 / 2)) * (1 - z)
    let factor5 := factor4 ^ 2
    let results ← results.wr (idx3 1 0 0) factor1
    let results ← (List.range' 1 (n - 1)).foldlM (fun (results : Slots A) (p : ℕ) => do
      let a1 : ℝ := (2 * p + 1) / (p + 1)
      let a2 : ℝ := p / (p + 1)
      let u ← results.rd (idx3 p 0 0)
      let v ← results.rd (idx3 (p - 1) 0 0)
      results.wr (idx3 (p + 1) 0 0) ((↟ a1) * factor1 * u - (↟ a2) * factor2 * v)) results
    let results ← (List.range n).foldlM (fun (results : Slots A) (p : ℕ) => do
      let u ← results.rd (idx3 p 0 0)
      results.wr (idx3 p 1 0) (u * ((↟ (p : ℝ)) * (1 + y) + (↟ (1 / 2)) * ((↟ 2) + (↟ 3) * y + z)))) results
    let results ← (List.range (n - 1)).foldlM (fun (results : Slots A) (p : ℕ) =>
      (List.range' 1 (n - p - 1)).foldlM (fun (results : Slots A) (q : ℕ) => do
        let c := jrc (2 * p + 1) 0 q
        let qmcoeff := (↟ c.1) * factor3 + (↟ c.2.1) * factor4
        let qm1coeff := (↟ c.2.2) * factor5
        let u ← results.rd (idx3 p q 0)
        let v ← results.rd (idx3 p (q - 1) 0)
        results.wr (idx3 p (q + 1) 0) (qmcoeff * u - qm1coeff * v)) results) results
    let results ← (List.range n).foldlM (fun (results : Slots A) (p : ℕ) =>
      (List.range (n - p)).foldlM (fun (results : Slots A) (q : ℕ) => do
        let u ← results.rd (idx3 p q 0)
        results.wr (idx3 p q 1) (u * ((↟ (1 + p + q : ℝ)) + (↟ (2 + q + p : ℝ)) * z))) results) results
    let results ← (List.range (n - 1)).foldlM (fun (results : Slots A) (p : ℕ) =>
      (List.range (n - p - 1)).foldlM (fun (results : Slots A) (q : ℕ) =>
        (List.range' 1 (n - p - q - 1)).foldlM (fun (results : Slots A) (r : ℕ) => do
          let c := jrc (2 * p + 2 * q + 2) 0 r
          let u ← results.rd (idx3 p q r)
          let v ← results.rd (idx3 p q (r - 1))
          results.wr (idx3 p q (r + 1)) (((↟ c.1) * z + ↟ c.2.1) * u - (↟ c.2.2) * v)) results) results) results
    (List.range (n + 1)).foldlM (fun (results : Slots A) (p : ℕ) =>
      (List.range (n - p + 1)).foldlM (fun (results : Slots A) (q : ℕ) =>
        (List.range (n - p - q + 1)).foldlM (fun (results : Slots A) (r : ℕ) => do
          let u ← results.rd (idx3 p q r)
          results.wr (idx3 p q r) (u * ↟ (Real.sqrt ((p + 1 / 2) * (p + q + 1) * (p + q + r + 3 / 2))))) results)
        results) results

/-- `LineExpansionSet.tabulate(n, pts)`, expansions.py:155-168, for one point (column): `self.mapping(pt)`, then
`eval_jacobi_batch` and the scaling of row `k` (the code multiplies whole rows). -/
noncomputable def lineTabulate (M : Matrix (Fin 1) (Fin 1) ℝ) (b : Fin 1 → ℝ) (n : ℕ) (pts : Fin 1 → A) : Slots A :=
  let ref_pts := [refPt M b pts 0]
  let psitilde_as := evalJacobiBatch (0 : ℝ) 0 n ref_pts
  (List.range (n + 1)).map fun k => some (psitilde_as k 0 * ↟ (Real.sqrt (k + 1 / 2)))

/-- `LineExpansionSet.tabulate_derivatives(n, pts)`, expansions.py:170-193: the entry `deriv_vals[0][k][0]` at one
point; `vol` is `ref_el.volume()`. -/
noncomputable def lineDerivatives (M : Matrix (Fin 1) (Fin 1) ℝ) (b : Fin 1 → ℝ) (vol : ℝ) (n : ℕ) (pts : Fin 1 → ℝ) :
    List ℝ :=
  let ref_pts := [refPt M b pts 0]
  let psitilde_as_derivs := evalJacobiDerivBatch (0 : ℝ) 0 n ref_pts
  (List.range (n + 1)).map fun k => psitilde_as_derivs k 0 * (2 / vol) * Real.sqrt (k + 1 / 2)

/-- The expansion set chosen by `get_expansion_set` (expansions.py:373-387) on a simplex with the given vertices: the
affine map to the default simplex (expansions.py:150-152, :204-206, :291-293) and the table at `pts`.  The spatial
dimensions are 1, 2 and 3 (`none` otherwise, or if `make_affine_mapping` raises). -/
noncomputable def expansionTable : (d : ℕ) → (verts : List (Fin d → ℝ)) → (n : ℕ) → (pts : Fin d → A) → Option (Slots A)
  | 1, verts, n, pts => do
    let Mb ← makeAffineMapping verts (defaultVerts 1)
    some (lineTabulate Mb.1 Mb.2 n pts)
  | 2, verts, n, pts => do
    let Mb ← makeAffineMapping verts (defaultVerts 2)
    triTabulate Mb.1 Mb.2 n pts
  | 3, verts, n, pts => do
    let Mb ← makeAffineMapping verts (defaultVerts 3)
    tetTabulate Mb.1 Mb.2 n pts
  | _, _, _, _ => none

/-- `tabulate_derivatives(n, pts)` of the triangle and the tetrahedron through `_tabulate_dpts(..., order=1, ...)`,
expansions.py:25-92, :264-276, :372-384: the table with symbols for the coordinates, differentiated by sympy and
evaluated; entry `k`: value and gradient of member `k` at the point. -/
noncomputable def symbolicDerivatives {d : ℕ} (verts : List (Fin d → ℝ)) (n : ℕ) (pt : Fin d → ℝ) :
    Option (List (ℝ × (Fin d → ℝ))) := do
  let tab ← expansionTable (A := MvPolynomial (Fin d) ℝ) d verts n MvPolynomial.X
  tab.mapM fun e => e.map fun phi =>
    (MvPolynomial.eval pt phi, fun j => MvPolynomial.eval pt (MvPolynomial.pderiv j phi))

end
end FIAT
