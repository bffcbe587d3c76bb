/-
Model of `check_format_variant` (FIAT/check_format_variant.py:5-25).
-/
import Mathlib.Data.List.Basic

namespace FIAT

/-- The two exceptions and the results of `check_format_variant`; `quad_degree` is `None` for "point". -/
inductive VariantResult where
  | point
  | integral (quadDegree : ℕ)
  | errTooSmall
  | errUnknown
  deriving DecidableEq, Repr

/-- Python's `\d` together with the value `int` gives to the character.  All Unicode decimal digits are
accepted by both, so the table is a parameter; the three facts used about it are here. -/
structure DigitTable where
  val : Char → Option ℕ
  ascii : ∀ i : Fin 10, val (Char.ofNat (48 + i.val)) = some i.val
  lparen : val '(' = none
  rparen : val ')' = none
  newline : val '\n' = none

/-- The string `"integral"`. -/
def strIntegral : List Char := ['i', 'n', 't', 'e', 'g', 'r', 'a', 'l']
/-- The string `"point"`. -/
def strPoint : List Char := ['p', 'o', 'i', 'n', 't']

/-- `$` without the MULTILINE flag: at the end or just before a newline at the end. -/
def atDollar (s : List Char) : Bool := s = [] || s = ['\n']

/-- `int(digits)`: decimal, most significant first. -/
def digitsVal (l : List ℕ) : ℕ := l.foldl (fun n d => 10 * n + d) 0

/-- `re.match(r"^integral(?:\((\d+)\))?$", s)`: `none` no match, `some none` a match with group 1 unset,
`some (some q)` a match with group 1 the decimal number `q`.
The optional group is tried first; `\d+` is greedy and what follows it is not a digit, so no shorter
run can match. -/
def matchIntegral (D : DigitTable) (s : List Char) : Option (Option ℕ) :=
  if strIntegral <+: s then
    let rest := s.drop strIntegral.length
    let group : Option (Option ℕ) :=
      match rest with
      | '(' :: r =>
        let ds := r.takeWhile fun c => (D.val c).isSome
        match r.drop ds.length with
        | ')' :: r' =>
          if ds ≠ [] ∧ atDollar r' then some (some (digitsVal (ds.filterMap D.val))) else none
        | _ => none
      | _ => none
    match group with
    | some g => some g
    | none => if atDollar rest then some none else none
  else none

/-- `check_format_variant(variant, degree, element)`; the deprecation warning for `None` is not modelled,
and neither is the limit on the length of integer literals of newer Python versions. -/
def checkFormatVariant (D : DigitTable) (variant : Option (List Char)) (degree : ℕ) : VariantResult :=
  let v := variant.getD strPoint
  match matchIntegral D v with
  | some g =>
    let q := g.getD (5 * (degree + 1))
    if q < degree + 1 then .errTooSmall else .integral q
  | none => if v = strPoint then .point else .errUnknown

end FIAT
