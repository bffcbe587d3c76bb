/-
C37: what `check_format_variant` accepts and returns.
-/
import Verif.Model.Variant
import Mathlib.Tactic.Ring
import Mathlib.Data.List.Infix
import Mathlib.Data.List.TakeWhile

namespace FIAT

/-- `ds` is a non-empty string of digits denoting `q`. -/
def Numeral (D : DigitTable) (ds : List Char) (q : ℕ) : Prop :=
  ∃ vs : List ℕ, vs ≠ [] ∧ ds.map D.val = vs.map some ∧ q = digitsVal vs

private theorem filterMap_eq (D : DigitTable) (ds : List Char) (vs : List ℕ) (h : ds.map D.val = vs.map some) :
    ds.filterMap D.val = vs := by
  induction ds generalizing vs with
  | nil => cases vs; rfl; simp at h
  | cons c ds ih =>
    cases vs with
    | nil => simp at h
    | cons v vs =>
      simp only [List.map_cons, List.cons.injEq] at h
      rw [List.filterMap_cons_some h.1, ih vs h.2]

private theorem exists_vals (D : DigitTable) (ds : List Char) (h : ∀ c ∈ ds, (D.val c).isSome) :
    ds.map D.val = (ds.filterMap D.val).map some := by
  induction ds with
  | nil => rfl
  | cons c ds ih =>
    obtain ⟨v, hv⟩ := Option.isSome_iff_exists.1 (h c (by simp))
    rw [List.filterMap_cons_some hv, List.map_cons, List.map_cons, hv, ih (fun x hx => h x (by simp [hx]))]

private theorem takeWhile_digits (D : DigitTable) (ds r : List Char) (h : ∀ c ∈ ds, (D.val c).isSome) :
    (ds ++ ')' :: r).takeWhile (fun c => (D.val c).isSome) = ds := by
  rw [List.takeWhile_append_of_pos h, List.takeWhile_cons_of_neg (by simp [D.rparen])]
  simp

private theorem atDollar_iff (s : List Char) : atDollar s = true ↔ s = [] ∨ s = ['\n'] := by
  simp [atDollar]

/-- The exact language of the regular expression and its group. -/
theorem match_integral_iff (D : DigitTable) (s : List Char) (g : Option ℕ) :
    matchIntegral D s = some g ↔
      ∃ e : List Char, (e = [] ∨ e = ['\n']) ∧
        ((g = none ∧ s = strIntegral ++ e) ∨
         ∃ ds q, Numeral D ds q ∧ g = some q ∧ s = strIntegral ++ '(' :: ds ++ ')' :: e) := by
  unfold matchIntegral
  constructor
  · intro h
    split at h
    · rename_i hpre
      obtain ⟨rest, rfl⟩ := hpre
      simp only [List.drop_left] at h
      split at h
      · rename_i g' hg
        split at hg
        · rename_i r
          split at hg
          · rename_i r' hr'
            split at hg
            · rename_i hc
              simp only [Option.some.injEq] at hg h
              subst hg; subst h
              refine ⟨r', (atDollar_iff _).1 hc.2, .inr ⟨r.takeWhile fun c => (D.val c).isSome, _, ⟨_, ?_, 
                exists_vals D _ (fun c hc => ?_), rfl⟩, rfl, ?_⟩⟩
              · intro h0
                have := exists_vals D (r.takeWhile fun c => (D.val c).isSome)
                  (fun c hc => by simpa using List.mem_takeWhile_imp hc)
                rw [h0] at this
                simp only [List.map_nil, List.map_eq_nil_iff] at this
                exact hc.1 this
              · simpa using List.mem_takeWhile_imp hc
              · have h3 := List.takeWhile_append_dropWhile (p := fun c => (D.val c).isSome) (l := r)
                have h4 : r = r.takeWhile (fun c => (D.val c).isSome) ++ ')' :: r' := by
                  rw [← hr']
                  conv_lhs => rw [← List.take_append_drop (r.takeWhile (fun c => (D.val c).isSome)).length r]
                  congr 1
                  exact (List.prefix_iff_eq_take.1 (List.takeWhile_prefix _)).symm
                rw [List.append_assoc, List.cons_append, ← h4]
            · cases hg
          · cases hg
        · cases hg
      · split at h
        · rename_i hd
          simp only [Option.some.injEq] at h
          exact ⟨rest, (atDollar_iff _).1 hd, .inl ⟨h.symm, rfl⟩⟩
        · cases h
    · cases h
  · rintro ⟨e, he, ⟨rfl, rfl⟩ | ⟨ds, q, ⟨vs, hvs, hds, rfl⟩, rfl, rfl⟩⟩
    · rw [if_pos (List.prefix_append _ _)]
      simp only [List.drop_left]
      rcases he with rfl | rfl <;> rfl
    · have hsome : ∀ c ∈ ds, (D.val c).isSome := by
        intro c hc
        have : D.val c ∈ vs.map some := hds ▸ List.mem_map_of_mem hc
        obtain ⟨v, _, hv⟩ := List.mem_map.1 this
        simp [← hv]
      rw [List.append_assoc, if_pos (List.prefix_append _ _)]
      simp only [List.drop_left, List.cons_append]
      rw [takeWhile_digits D ds e hsome, List.drop_left]
      simp only
      rw [if_pos, filterMap_eq D ds vs hds]
      refine ⟨?_, (atDollar_iff _).2 he⟩
      rintro rfl
      simp at hds
      exact hvs hds

/-- C37: `'point'` and `None` give `('point', None)`. -/
theorem variant_point (D : DigitTable) (degree : ℕ) :
    checkFormatVariant D none degree = .point ∧ checkFormatVariant D (some strPoint) degree = .point := by
  constructor <;> rfl

/-- C37: `'integral'` gives `('integral', 5(degree+1))`. -/
theorem variant_integral (D : DigitTable) (degree : ℕ) :
    checkFormatVariant D (some strIntegral) degree = .integral (5 * (degree + 1)) := by
  have h : matchIntegral D strIntegral = some none :=
    (match_integral_iff D _ _).2 ⟨[], .inl rfl, .inl ⟨rfl, by simp⟩⟩
  unfold checkFormatVariant
  simp only [Option.getD_some, h, Option.getD_none]
  rw [if_neg (by omega)]

/-- C37: `'integral(q)'` gives `('integral', q)` when `q >= degree + 1` and raises otherwise. -/
theorem variant_integral_q (D : DigitTable) (degree : ℕ) (ds : List Char) (q : ℕ) (h : Numeral D ds q) :
    checkFormatVariant D (some (strIntegral ++ '(' :: ds ++ [')'])) degree =
      if degree + 1 ≤ q then .integral q else .errTooSmall := by
  have h : matchIntegral D (strIntegral ++ '(' :: ds ++ [')']) = some (some q) :=
    (match_integral_iff D _ _).2 ⟨[], .inl rfl, .inr ⟨ds, q, h, rfl, rfl⟩⟩
  unfold checkFormatVariant
  simp only [Option.getD_some, h]
  by_cases hq : degree + 1 ≤ q
  · rw [if_neg (by omega), if_pos hq]
  · rw [if_pos (by omega), if_neg hq]

/-- C37, the rejection part: what is accepted is one of the documented strings, possibly followed by one
newline.  Missing from the full claim ("any other string is rejected"): the newline, see
`variant_newline`. -/
theorem variant_reject_partial (D : DigitTable) (degree : ℕ) (s : List Char)
    (h : checkFormatVariant D (some s) degree ≠ .errUnknown) :
    s = strPoint ∨ ∃ e, (e = [] ∨ e = ['\n']) ∧
      (s = strIntegral ++ e ∨ ∃ ds q, Numeral D ds q ∧ s = strIntegral ++ '(' :: ds ++ ')' :: e) := by
  unfold checkFormatVariant at h
  simp only [Option.getD_some] at h
  split at h
  · rename_i g hg
    obtain ⟨e, he, ⟨_, hs⟩ | ⟨ds, q, hn, _, hs⟩⟩ := (match_integral_iff D _ _).1 hg
    · exact .inr ⟨e, he, .inl hs⟩
    · exact .inr ⟨e, he, .inr ⟨ds, q, hn, hs⟩⟩
  · by_cases hs : s = strPoint
    · exact .inl hs
    · simp [hs] at h

/-- The full claim is false of the code: `'integral\n'` is not a documented variant but is accepted
(`$` matches before a trailing newline). -/
theorem variant_newline (D : DigitTable) (degree : ℕ) :
    checkFormatVariant D (some (strIntegral ++ ['\n'])) degree = .integral (5 * (degree + 1)) := by
  have h : matchIntegral D (strIntegral ++ ['\n']) = some none :=
    (match_integral_iff D _ _).2 ⟨['\n'], .inr rfl, .inl ⟨rfl, rfl⟩⟩
  unfold checkFormatVariant
  simp only [Option.getD_some, h, Option.getD_none]
  rw [if_neg (by omega)]

/-- The ASCII digits as a table. -/
def asciiDigits : DigitTable where
  val c := if 48 ≤ c.toNat ∧ c.toNat ≤ 57 then some (c.toNat - 48) else none
  ascii := by decide
  lparen := by decide
  rparen := by decide
  newline := by decide

/-! Non-vacuity: `'integral(12)'` for degrees 3 and 20, and `'integral()'`. -/
example : Numeral asciiDigits ['1', '2'] 12 := ⟨[1, 2], by decide, by decide, by decide⟩
example : checkFormatVariant asciiDigits (some (strIntegral ++ ['(', '1', '2', ')'])) 3 = .integral 12 ∧
    checkFormatVariant asciiDigits (some (strIntegral ++ ['(', '1', '2', ')'])) 20 = .errTooSmall ∧
    checkFormatVariant asciiDigits (some (strIntegral ++ ['(', ')'])) 3 = .errUnknown := by
  refine ⟨?_, ?_, ?_⟩ <;> decide

end FIAT
