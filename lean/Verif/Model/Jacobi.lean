/-
Model of FIAT/jacobi.py (all four functions) and of `rec_jacobi`, `polyval`, `jacobi`, `jacobiD` of
FIAT/orthopoly.py.

The parameters are elements of a field `K` (floats); the point `x` is an element of a commutative
`K`-algebra `A`: FIAT calls these functions with numbers, numpy arrays and symbolic expressions.
-/
import Mathlib.Algebra.Algebra.Basic
import Mathlib.Algebra.Field.Basic
import Mathlib.Data.List.Range
import Mathlib.Logic.Function.Basic

namespace FIAT
section
variable {K A : Type*} [Field K] [CommRing A] [Algebra K A]

/-- A number used as an array or expression. -/
local notation "↟" c => algebraMap K A c

/-- One pass of the loop of `eval_jacobi`, jacobi.py:31-43: the new value from the previous two. -/
def jacobiStep (a b : K) (k : ℕ) (x pn1 pn2 : A) : A :=
  let apb := a + b
  let a1 := 2 * (k : K) * (k + apb) * (2 * k + apb - 2)
  let a2 := (2 * (k : K) + apb - 1) * (a * a - b * b)
  let a3 := (2 * (k : K) + apb - 2) * (2 * k + apb - 1) * (2 * k + apb)
  let a4 := 2 * ((k : K) + a - 1) * (k + b - 1) * (2 * k + apb)
  let a2 := a2 / a1
  let a3 := a3 / a1
  let a4 := a4 / a1
  ((↟ a2) + (↟ a3) * x) * pn1 - (↟ a4) * pn2

/-- `eval_jacobi(a, b, n, x)`, jacobi.py:15-46.  The loop carries `(pn2, pn1, p)`. -/
def evalJacobi (a b : K) (n : ℕ) (x : A) : A :=
  if n = 0 then 1
  else if n = 1 then (↟ (1 / 2)) * ((↟ (a - b)) + (↟ (a + b + 2)) * x)
  else
    ((List.range' 2 (n - 1)).foldl (fun (st : A × A × A) k =>
      let p := jacobiStep a b k x st.2.1 st.1
      (st.2.1, p, p)) (1, (↟ (1 / 2)) * ((↟ (a - b)) + (↟ (a + b + 2)) * x), 0)).2.2

/-- `eval_jacobi_batch(a, b, n, xs)`, jacobi.py:49-78: entry (degree, point number); rows are written in
place. -/
def evalJacobiBatch (a b : K) (n : ℕ) (xs : List A) : ℕ → ℕ → A :=
  let r0 : ℕ → ℕ → A := Function.update (fun _ _ => 0) 0 (fun j => 1 + xs.getD j 0 - xs.getD j 0)
  if 0 < n then
    let r1 := Function.update r0 1 (fun j => (↟ (1 / 2)) * ((↟ (a - b)) + (↟ (a + b + 2)) * xs.getD j 0))
    (List.range' 2 (n - 1)).foldl (fun (r : ℕ → ℕ → A) k =>
      Function.update r k (fun j => jacobiStep a b k (xs.getD j 0) (r (k - 1) j) (r (k - 2) j))) r1
  else r0

/-- `eval_jacobi_deriv(a, b, n, x)`, jacobi.py:81-86. -/
def evalJacobiDeriv (a b : K) (n : ℕ) (x : A) : A :=
  if n = 0 then 0
  else (↟ (1 / 2 * (a + b + n + 1))) * evalJacobi (a + 1) (b + 1) (n - 1) x

/-- `eval_jacobi_deriv_batch(a, b, n, xs)`, jacobi.py:89-102. -/
def evalJacobiDerivBatch (a b : K) (n : ℕ) (xs : List A) : ℕ → ℕ → A :=
  if n = 0 then fun _ _ => 0
  else
    let r0 : ℕ → ℕ → A := fun k j => if k = 0 then 0 else evalJacobiBatch (a + 1) (b + 1) (n - 1) xs (k - 1) j
    (List.range' 1 n).foldl (fun (r : ℕ → ℕ → A) k =>
      Function.update r k (fun j => (↟ (1 / 2 * (a + b + k + 1))) * r k j)) r0

/-- `orthopoly.jacobi(N, a, b, x)` with `NOPT=1`, orthopoly.py:204-236, column `k`. -/
def orthoJacobi (N : ℕ) (a b : K) (x : A) : ℕ → A :=
  let apb := a + b
  let a1 := a - 1
  let b1 := b - 1
  let c := apb * (a - b)
  let P0 : ℕ → A := Function.update (fun _ => 0) 0 1
  let P1 := if 0 < N then Function.update P0 1 ((↟ (1 / 2)) * ((↟ (a - b)) + (↟ (apb + 2)) * x)) else P0
  if 1 < N then
    (List.range' 2 (N - 1)).foldl (fun (P : ℕ → A) (k : ℕ) =>
      let k2 : K := 2 * k
      let g := k2 + apb
      let g1 := g - 1
      let g2 := g - 2
      let d := 2 * ((k : K) + a1) * (k + b1) * g
      Function.update P k ((↟ (k2 * (k + apb) * g2)⁻¹) *
        ((↟ g1) * ((↟ c) + (↟ (g2 * g)) * x) * P (k - 1) - (↟ d) * P (k - 2)))) P1
  else P1

/-- `orthopoly.jacobiD(N, a, b, x)` with `NOPT=1`, orthopoly.py:243-259, column `k`. -/
def orthoJacobiD (N : ℕ) (a b : K) (x : A) : ℕ → A :=
  if N = 0 then fun _ => 0
  else fun k => (↟ (1 / 2)) *
    (if k = 0 then 0 else orthoJacobi (N - 1) (a + 1) (b + 1) x (k - 1) * (↟ (a + b + 2 + ((k - 1 : ℕ) : K))))

/-- `rec_jacobi(N, a, b)`, orthopoly.py:104-143, for `N >= 2`; `beta[0]` is `mu`, which no polynomial
depends on, so it is an argument.  (For `N = 1` the code returns two scalars.) -/
def recJacobi (mu : K) (a b : K) : (ℕ → K) × (ℕ → K) :=
  let nab : ℕ → K := fun n => 2 * n + a + b
  (fun k => if k = 0 then (b - a) / (a + b + 2) else (b ^ 2 - a ^ 2) / (nab k * (nab k + 2)),
   fun k => if k = 0 then mu
     else if k = 1 then 4 * (a + 1) * (b + 1) / ((a + b + 2) ^ 2 * (a + b + 3))
     else 4 * (k + a) * (k + b) * k * (k + a + b) / (nab k ^ 2 * (nab k + 1) * (nab k - 1)))

/-- `polyval(alpha, beta, x)`, orthopoly.py:186-201, column `k`; `N = len(alpha)`. -/
def orthoPolyval (N : ℕ) (alpha beta : ℕ → K) (x : A) : ℕ → A :=
  let P0 : ℕ → A := Function.update (fun _ => 0) 0 1
  let P1 := Function.update P0 1 ((x - ↟ (alpha 0)) * P0 0)
  (List.range' 1 (N - 1)).foldl (fun (P : ℕ → A) (k : ℕ) =>
    Function.update P (k + 1) ((x - ↟ (alpha k)) * P k - (↟ (beta k)) * P (k - 1))) P1

end
end FIAT
