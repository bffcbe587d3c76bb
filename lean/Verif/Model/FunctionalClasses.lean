/-
Model of the functional classes (FIAT/functional.py:177-796) and of
the coefficient arrays of `ONPolynomialSet` and `ONSymTensorPolynomialSet` (FIAT/polynomial_set.py:128-152,
:238-264).

Vectors computed by the cell (`compute_normal`, `compute_scaled_normal`, `compute_edge_tangent`,
`compute_face_tangents`) are arguments (`n`, `t`); so are the quadrature points after
`get_entity_transform`, the weights and the tables of the moment functions.  `tostr` and the sympy-based
`__call__` of `PointDerivative` are not modelled.
-/
import Verif.Model.Functional
import Mathlib.Algebra.BigOperators.Fin
import Mathlib.Data.Fin.VecNotation

namespace FIAT

section classes
variable {K P : Type} [Field K] [DecidableEq P]

/-- Filling an (Ordered)Dict in a loop over points; a repeated point overwrites. -/
def fillDict {ι α : Type} (L : List ι) (key : ι → P) (val : ι → α) : Dict P α :=
  L.foldl (fun d i => Dict.put d (key i) (val i)) []

/-- `[1 if j == i else 0 for j in range(sd)]`, functional.py:330, :452, :480; the same list is built at
:245-249. -/
def unitAlpha (sd i : ℕ) : List ℕ := (List.range sd).map fun j => if j = i then 1 else 0

/-- `PointEvaluation`, functional.py:177-184. -/
def pointEvaluation (x : P) : Functional K P := ⟨[(x, [(1, [])])], []⟩

/-- `ComponentPointEvaluation`, functional.py:194-206; `none`: illegal shape or component. -/
def componentPointEvaluation (comp : ℤ) (shp : List ℕ) (x : P) : Option (Functional K P) :=
  match shp with
  | [n] => if comp < 0 ∨ (n : ℤ) ≤ comp then none else some ⟨[(x, [(1, [comp.toNat])])], []⟩
  | _ => none

/-- `PointDerivative`, functional.py:213-222. -/
def pointDerivative (x : P) (alpha : List ℕ) : Functional K P := ⟨[], [(x, [(1, alpha, [])])]⟩

/-- `PointNormalDerivative`, functional.py:238-252. -/
def pointNormalDerivative (sd : ℕ) (n : ℕ → K) (pt : P) : Functional K P :=
  ⟨[], [(pt, (List.range sd).map fun i => (n i, unitAlpha sd i, []))]⟩

/-- The list `alphas` of `PointNormalSecondDerivative`, functional.py:263-271. -/
def secondAlphas (sd : ℕ) : List (List ℕ) :=
  (List.range sd).flatMap fun i => ((List.range sd).filter (i ≤ ·)).map fun j =>
    (List.range sd).map fun l => (if l = i then 1 else 0) + (if l = j then 1 else 0)

/-- `PointNormalSecondDerivative`, functional.py:255-278: the weights are `n[i]` and the multi-indices
`alphas[i]`, both for `i in range(sd)` only. -/
def pointNormalSecondDerivative (sd : ℕ) (n : ℕ → K) (pt : P) : Functional K P :=
  ⟨[], [(pt, (List.range sd).map fun i => (n i, (secondAlphas sd).getD i [], []))]⟩

/-- `IntegralMoment`, functional.py:281-303: points, weights and values of `f`, zipped. -/
def integralMoment (Q : List (P × K × K)) (comp : List ℕ) : Functional K P :=
  ⟨fillDict Q (fun q => q.1) (fun q => [(q.2.1 * q.2.2, comp)]), []⟩

/-- `IntegralMomentOfNormalDerivative`, functional.py:317-339; `Q` holds the mapped points. -/
def integralMomentOfNormalDerivative (sd : ℕ) (n : ℕ → K) (Q : List (P × K × K)) : Functional K P :=
  ⟨[], fillDict Q (fun q => q.1) (fun q =>
    (List.range sd).map fun i => (q.2.1 * n i * q.2.2, unitAlpha sd i, []))⟩

/-- `IntegralLegendreDirectionalMoment`, functional.py:345-365 (`sd = 2`), in direction `s`;
`IntegralLegendreNormalMoment` (:368) and `IntegralLegendreTangentialMoment` (:376) are this with the scaled
normal and the edge tangent.  The third entry of `Q` is the value of the Legendre polynomial. -/
def integralLegendreDirectionalMoment (s : ℕ → K) (Q : List (P × K × K)) : Functional K P :=
  ⟨fillDict Q (fun q => q.1) (fun q => (List.range 2).map fun i => (q.2.1 * (s i * q.2.2), [i])), []⟩

/-- `IntegralLegendreBidirectionalMoment`, functional.py:384-417; `vol` is `volume_of_subcomplex(1, entity)`,
whose square multiplies the Legendre values. -/
def integralLegendreBidirectionalMoment (sd : ℕ) (s1 s2 : ℕ → K) (vol : K) (Q : List (P × K × K)) :
    Functional K P :=
  ⟨fillDict Q (fun q => q.1) (fun q => (indexIterator [sd, sd]).map fun ij =>
    (q.2.1 * (s1 (ij.getD 0 0) * s2 (ij.getD 1 0) * (q.2.2 * vol ^ 2)), ij)), []⟩

/-- `IntegralMomentOfDivergence`, functional.py:437-457. -/
def integralMomentOfDivergence (sd : ℕ) (Q : List (P × K × K)) : Functional K P :=
  ⟨[], fillDict Q (fun q => q.1) (fun q =>
    (List.range sd).map fun i => (q.2.1 * q.2.2, unitAlpha sd i, [i]))⟩

/-- `IntegralMomentOfTensorDivergence`, functional.py:460-484; the table is 2 by (number of points). -/
def integralMomentOfTensorDivergence (sd : ℕ) (Q : List (P × K × (ℕ → K))) : Functional K P :=
  ⟨[], fillDict Q (fun q => q.1) (fun q =>
    (List.range 2).flatMap fun i => (List.range 2).map fun j =>
      (q.2.1 * q.2.2 i, unitAlpha sd j, [i, j]))⟩

/-- `FrobeniusIntegralMoment`, functional.py:487-504; the table has shape `shp` times (number of
points). -/
def frobeniusIntegralMoment (shp : List ℕ) (Q : List (P × K × (List ℕ → K))) : Functional K P :=
  ⟨fillDict Q (fun q => q.1) (fun q =>
    (indexIterator shp).map fun alfa => (q.2.1 * q.2.2 alfa, alfa)), []⟩

/-- `PointNormalEvaluation` (functional.py:507-519, unit normal), `PointScaledNormalEvaluation` (:635-646,
scaled normal), `PointEdgeTangentEvaluation` (:522-532) and `PointFaceTangentEvaluation` (:563-574):
the component of a vector in direction `n` at a point. -/
def pointDirectionEvaluation (sd : ℕ) (n : ℕ → K) (pt : P) : Functional K P :=
  ⟨[(pt, (List.range sd).map fun i => (n i, [i]))], []⟩

/-- `IntegralMomentOfEdgeTangentEvaluation` (functional.py:539-560), `IntegralMomentOfScaledNormalEvaluation`
(:653-673), `IntegralMomentOfNormalEvaluation` (:728-748), `IntegralMomentOfTangentialEvaluation` (:751-772):
`pt_dict[pt] = [(wgt*phi*n[i], (i,)) for i in range(sd)]`. -/
def integralMomentOfDirection (sd : ℕ) (n : ℕ → K) (Q : List (P × K × K)) : Functional K P :=
  ⟨fillDict Q (fun q => q.1) (fun q =>
    (List.range sd).map fun i => (q.2.1 * q.2.2 * n i, [i])), []⟩

/-- `IntegralMomentOfNormalNormalEvaluation`, functional.py:775-796: the body is the one of
`IntegralMomentOfNormalEvaluation`. -/
def integralMomentOfNormalNormalEvaluation (sd : ℕ) (n : ℕ → K) (Q : List (P × K × K)) : Functional K P :=
  ⟨fillDict Q (fun q => q.1) (fun q =>
    (List.range sd).map fun i => (q.2.1 * q.2.2 * n i, [i])), []⟩

/-- `IntegralMomentOfFaceTangentEvaluation`, functional.py:581-609. -/
def integralMomentOfFaceTangent (n : ℕ → K) (Q : List (P × K × (ℕ → K))) : Functional K P :=
  ⟨fillDict Q (fun q => q.1) (fun q =>
    let phi := q.2.2
    let wgt := q.2.1
    let phixn0 := phi 1 * n 2 - phi 2 * n 1
    let phixn1 := phi 2 * n 0 - phi 0 * n 2
    let phixn2 := phi 0 * n 1 - phi 1 * n 0
    [(wgt * (-n 2 * phixn1 + n 1 * phixn2), [0]),
     (wgt * (n 2 * phixn0 - n 0 * phixn2), [1]),
     (wgt * (-n 1 * phixn0 + n 0 * phixn1), [2])]), []⟩

/-- `MonkIntegralMoment`, functional.py:612-632. -/
def monkIntegralMoment (sd : ℕ) (Q : List (P × K × (ℕ → K))) : Functional K P :=
  ⟨fillDict Q (fun q => q.1) (fun q => (List.range sd).map fun i => (q.2.1 * q.2.2 i, [i])), []⟩

/-- `PointwiseInnerProductEvaluation`, functional.py:676-696: weights `numpy.outer(w, v)[i][j]`. -/
def pointwiseInnerProduct (sd : ℕ) (v w : ℕ → K) (p : P) : Functional K P :=
  ⟨[(p, (indexIterator [sd, sd]).map fun ij => (w (ij.getD 0 0) * v (ij.getD 1 0), ij))], []⟩

end classes

section coeffs
variable {K : Type} [Field K]

/-- The coefficient array of `ONPolynomialSet(ref_el, degree, shape)`, polynomial_set.py:128-152, with
`n = polynomial_dimension(ref_el, degree)`; indexed by (member, component, expansion function).  Also
returns the final `cur_bf`. -/
def onCoeffs (n : ℕ) (shape : List ℕ) : (ℕ × List ℕ × ℕ → K) × ℕ :=
  if shape = [] then (fun q => if q.1 = q.2.2 ∧ q.2.1 = [] then 1 else 0, n)
  else (indexIterator shape).foldl (fun st idx =>
    (List.range n).foldl (fun (st : (ℕ × List ℕ × ℕ → K) × ℕ) exp_bf =>
      (Function.update st.1 (st.2, idx, exp_bf) 1, st.2 + 1)) st) (fun _ => 0, 0)

/-- `num_members` of `ONPolynomialSet`, polynomial_set.py:118-125. -/
def onNumMembers (n : ℕ) (shape : List ℕ) : ℕ := (if shape = [] then 1 else shape.prod) * n

/-- The coefficient array of `ONSymTensorPolynomialSet(ref_el, degree, size)`, polynomial_set.py:246-264. -/
def onSymCoeffs (n size : ℕ) : (ℕ × List ℕ × ℕ → K) × ℕ :=
  (indexIterator [size, size]).foldl (fun st ij =>
    let i := ij.getD 0 0
    let j := ij.getD 1 0
    if i = j then
      (List.range n).foldl (fun (st : (ℕ × List ℕ × ℕ → K) × ℕ) exp_bf =>
        (Function.update st.1 (st.2, [i, j], exp_bf) 1, st.2 + 1)) st
    else if i < j then
      (List.range n).foldl (fun (st : (ℕ × List ℕ × ℕ → K) × ℕ) exp_bf =>
        (Function.update (Function.update st.1 (st.2, [i, j], exp_bf) 1) (st.2, [j, i], exp_bf) 1,
          st.2 + 1)) st
    else st) (fun _ => 0, 0)

/-- `num_members` of `ONSymTensorPolynomialSet`, polynomial_set.py:240-241. -/
def onSymNumMembers (n size : ℕ) : ℕ := size * (size + 1) / 2 * n

end coeffs
end FIAT
