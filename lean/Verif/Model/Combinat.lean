/-
Model of the index enumerations of FIAT:
  * `polynomial_set.mis`            (FIAT/polynomial_set.py:23-32)
  * `reference_element.lattice_iter` (FIAT/reference_element.py:40-52)
  * `functional.index_iterator`     (FIAT/functional.py:25-38)
Python tuples and lists of non-negative integers are `List ℕ`.
-/
import Mathlib.Data.List.Basic
import Mathlib.Algebra.Order.Ring.Int

namespace FIAT

/-- Python's `range(a, b)` on non-negative integers (empty when `b ≤ a`). -/
def pyRange (a b : ℕ) : List ℕ := List.range' a (b - a)

/-- `mis(m, n)`, FIAT/polynomial_set.py:23-32, for an integer first argument.  `fuel` bounds the
recursion depth (Python's recursion limit); `none` is `RecursionError`.
`[0] * m` is the empty list for `m ≤ 0`, hence `Int.toNat`. -/
def misFuel : ℕ → ℤ → ℕ → Option (List (List ℕ))
  | 0, _, _ => none
  | fuel + 1, m, n =>
    if m = 1 then some [[n]]                                   -- :25-26
    else if n = 0 then some [List.replicate m.toNat 0]         -- :27-28
    else do                                                    -- :29-32
      let parts ← (List.range (n + 1)).mapM fun i => do
        let foos ← misFuel fuel (m - 1) i
        return foos.map fun foo => (n - i) :: foo
      return parts.flatten

/-- `mis(m, n)` for `m ≥ 1`, FIAT/polynomial_set.py:23-32, by structural recursion on `m`
(`Props.Combinat` proves that it agrees with `misFuel`).  The value at `m = 0`, `n > 0`, where the
Python function does not return, is a dummy `[]` and is not used. -/
def mis : ℕ → ℕ → List (List ℕ)
  | 0, n => if n = 0 then [[]] else []
  | 1, n => [[n]]
  | m + 2, n =>
    if n = 0 then [List.replicate (m + 2) 0]
    else (List.range (n + 1)).flatMap fun i => (mis (m + 1) i).map fun foo => (n - i) :: foo

/-- `lattice_iter(start, finish, depth)`, FIAT/reference_element.py:40-52, as the list of yielded
values.  (Arguments are non-negative at every call site; `finish - ii > 0` inside the loop.) -/
def latticeIter (start : ℕ) : ℕ → ℕ → List (List ℕ)
  | _, 0 => []
  | finish, 1 => (pyRange start finish).map fun ii => [ii]
  | finish, d + 2 =>
    (pyRange start finish).flatMap fun ii =>
      (latticeIter start (finish - ii) (d + 1)).map fun jj => jj ++ [ii]

/-- `index_iterator(shp)`, FIAT/functional.py:25-38, as the list of yielded values. -/
def indexIterator : List ℕ → List (List ℕ)
  | [] => []
  | [s] => (List.range s).map fun i => [i]
  | s :: t :: shp =>
    (List.range s).flatMap fun i => (indexIterator (t :: shp)).map fun foo => i :: foo

/-- The derivative multi-indices visited by `PolynomialSet.tabulate(pts, jet_order)`,
FIAT/polynomial_set.py:75-77: for each order `i ≤ jet_order` the tuples of `mis(sd, i)`. -/
def jetKeys (sd order : ℕ) : List (List ℕ) :=
  (List.range (order + 1)).flatMap fun i => mis sd i

end FIAT
