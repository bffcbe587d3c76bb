/-
Model of `rec_jacobi01`, `mm_log`, `mod_chebyshev` and `rec_jaclog` of FIAT/orthopoly.py (:146-183, :262-384).

Floating-point numbers are reals.  A division by zero of numpy numbers (a warning and `inf` or `nan` in the result) is `none`.
-/
import Verif.Model.Lobatto

namespace FIAT

/-- `rec_jacobi01(N, a, b)`, orthopoly.py:146-183, with the arrays as functions of the index.  `none`: `ValueError` for `a, b <= -1` or
`N < 1`; for `N = 1` `rec_jacobi` returns two numbers and the assignment to `beta[0]` (:181) is a `TypeError`. -/
noncomputable def recJacobi01 (N : ℕ) (a b : ℝ) : Option ((ℕ → ℝ) × (ℕ → ℝ)) :=
  if a ≤ -1 ∨ b ≤ -1 then none
  else if N < 1 then none
  else if N = 1 then none
  else
    let cd := recJacobi (recMu a b) a b
    some (fun k => (1 + cd.1 k) / 2, Function.update (fun k => cd.2 k / 4) 0 (cd.2 0 / 2 ^ (a + b + 1)))

/-- A Python number: `isinstance(a, int)` or not. -/
inductive PyNum
  | int (z : ℤ)
  | float (x : ℝ)

/-- The value of a number. -/
def PyNum.val : PyNum → ℝ
  | .int z => z
  | .float x => x

/-- `isinstance(a, int) and a < n`, orthopoly.py:286: the value of `a` if so. -/
def PyNum.intBelow : PyNum → ℕ → Option ℤ
  | .int z, n => if z < n then some z else none
  | .float _, _ => none

/-- `mm[n]` before the factor `c`, orthopoly.py:286-300. -/
noncomputable def mmLogEntry (a : PyNum) (n : ℕ) : Option ℝ :=
  match a.intBelow n with
  | some z =>
    let p := (List.range (2 * z + 2).toNat).map fun (i : ℕ) => (((n : ℤ) - z + i : ℤ) : ℝ)
    some ((-1) ^ ((n : ℤ) - z).toNat / p.prod * Real.Gamma (z + 1) ^ 2)
  | none =>
    if n = 0 then some (1 / (a.val + 1) ^ 2)
    else
      let k := (List.range' 1 n).map fun (i : ℕ) => (i : ℝ)
      if (0 : ℝ) ∈ k.map fun (t : ℝ) => a.val + 1 - t then none
      else
        let s := k.map fun (t : ℝ) => 1 / (a.val + 1 + t) - 1 / (a.val + 1 - t)
        let p := k.map fun (t : ℝ) => (a.val + 1 - t) / (a.val + 1 + t)
        some ((1 / (a.val + 1) + s.sum) * p.prod / (a.val + 1))

/-- `mm_log(N, a)`, orthopoly.py:262-305; `none`: `ValueError`, or `nan` in the result. -/
noncomputable def mmLog (N : ℕ) (a : PyNum) : Option (List ℝ) :=
  if a.val ≤ -1 then none
  else ((List.range N).foldlM (fun (st : List ℝ × ℝ) (n : ℕ) =>
    (mmLogEntry a n).map fun m => (st.1 ++ [m * st.2], st.2 * (0.5 * ((n : ℝ) + 1) / (2 * n + 1)))) ([], 1)).map Prod.fst

/-- The state of the loop of `mod_chebyshev`: `alpha`, `beta`, `sig`. -/
structure ChebState where
  alpha : ℕ → ℝ
  beta : ℕ → ℝ
  sig : ℕ → ℕ → ℝ

/-- The inner loop, orthopoly.py:346-348. -/
def chebRow (N : ℕ) (alpham betam : ℕ → ℝ) (st : ChebState) (n : ℕ) : ℕ → ℕ → ℝ :=
  (List.range' (n - 1) (2 * N - n + 1 - (n - 1))).foldl (fun (sig : ℕ → ℕ → ℝ) (m : ℕ) =>
    Function.update sig n (Function.update (sig n) m
      (sig (n - 1) (m + 1) - (st.alpha (n - 2) - alpham m) * sig (n - 1) m - st.beta (n - 2) * sig (n - 2) m +
        betam m * sig (n - 1) (m - 1)))) st.sig

open Classical in
/-- One pass of the outer loop, orthopoly.py:345-352. -/
noncomputable def chebPass (N : ℕ) (alpham betam : ℕ → ℝ) (st : ChebState) (n : ℕ) : Option ChebState :=
  let sig := chebRow N alpham betam st n
  if sig n (n - 1) = 0 ∨ sig (n - 1) (n - 2) = 0 then none
  else some ⟨Function.update st.alpha (n - 1) (alpham (n - 1) + sig n n / sig n (n - 1) - sig (n - 1) (n - 1) / sig (n - 1) (n - 2)),
    Function.update st.beta (n - 1) (sig n (n - 1) / sig (n - 1) (n - 2)), sig⟩

open Classical in
/-- `mod_chebyshev(N, mom, alpham, betam)`, orthopoly.py:308-358: `alpha`, `beta`, `normsq`.  `none`: `ValueError` for `N < 1` and for an
array `mom` that does not fill a row of `sig` (:343), `IndexError` for too short arrays, or `nan`.  The arrays `alpham` and `betam` are
functions of the index together with their length `len`. -/
noncomputable def modChebyshev (N : ℕ) (mom : List ℝ) (len : ℕ) (alpham betam : ℕ → ℝ) : Option (List ℝ × List ℝ × List ℝ) :=
  if N < 1 then none
  else
    let N' := min N (mom.length / 2)
    if N' = 0 ∨ mom.length ≠ 2 * N' ∨ len < 2 * N' - 1 then none
    else if mom.getD 0 0 = 0 then none
    else
      let st0 : ChebState := ⟨Function.update (fun _ => 0) 0 (alpham 0 + mom.getD 1 0 / mom.getD 0 0),
        Function.update (fun _ => 0) 0 (mom.getD 0 0), Function.update (fun _ _ => 0) 1 fun m => mom.getD m 0⟩
      ((List.range' 2 (N' + 1 - 2)).foldlM (chebPass N' alpham betam) st0).map fun (st : ChebState) =>
        ((List.range N').map st.alpha, (List.range N').map st.beta, (List.range N').map fun k => st.sig (k + 1) k)

/-- `rec_jaclog(N, a)`, orthopoly.py:361-384. -/
noncomputable def recJaclog (N : ℕ) (a : PyNum) : Option (List ℝ × List ℝ) := do
  let ab ← recJacobi01 (2 * N) 0 0
  let mom ← mmLog (2 * N) a
  let r ← modChebyshev N mom (2 * N) ab.1 ab.2
  some (r.1, r.2.1)

end FIAT
