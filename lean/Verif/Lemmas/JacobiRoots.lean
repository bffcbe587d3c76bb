/-
The Jacobi polynomial of degree n has n distinct roots, all in (-1, 1).
-/
import Verif.Lemmas.JacobiInt
import Mathlib.Analysis.Polynomial.Basic
import Mathlib.Topology.Order.IntermediateValue
import Mathlib.MeasureTheory.Integral.IntervalIntegral.Basic

namespace FIAT
open Polynomial

/-- A polynomial without roots in an interval has constant sign there. -/
theorem sign_of_no_root (g : ℝ[X]) (h : ∀ x ∈ Set.Ioo (-1 : ℝ) 1, g.eval x ≠ 0) :
    (∀ x ∈ Set.Ioo (-1 : ℝ) 1, 0 < g.eval x) ∨ (∀ x ∈ Set.Ioo (-1 : ℝ) 1, g.eval x < 0) := by
  by_contra hc
  push_neg at hc
  obtain ⟨⟨x, hx, hx0⟩, ⟨y, hy, hy0⟩⟩ := hc
  have hpre : IsPreconnected (Set.Ioo (-1 : ℝ) 1) := isPreconnected_Ioo
  obtain ⟨z, hz, hz0⟩ := hpre.intermediate_value hx hy g.continuous.continuousOn ⟨hx0, hy0⟩
  exact h z hz hz0

/-- If every root of `p` in (-1, 1) has even multiplicity, `p` does not change sign there. -/
theorem even_sign (p : ℝ[X]) (hp : p ≠ 0) (h : ∀ r ∈ Set.Ioo (-1 : ℝ) 1, Even (p.rootMultiplicity r)) :
    (∀ x ∈ Set.Ioo (-1 : ℝ) 1, 0 ≤ p.eval x) ∨ (∀ x ∈ Set.Ioo (-1 : ℝ) 1, p.eval x ≤ 0) := by
  induction hn : p.natDegree using Nat.strong_induction_on generalizing p with
  | _ n ih =>
    by_cases hr : ∃ r ∈ Set.Ioo (-1 : ℝ) 1, p.eval r = 0
    · obtain ⟨r, hr1, hr0⟩ := hr
      have hmul : 0 < p.rootMultiplicity r := (rootMultiplicity_pos hp).2 hr0
      obtain ⟨q, hq⟩ := pow_rootMultiplicity_dvd p r
      have hev := h r hr1
      have hq0 : q ≠ 0 := by rintro rfl; rw [mul_zero] at hq; exact hp hq
      have hX : (X - C r) ^ p.rootMultiplicity r ≠ 0 := pow_ne_zero _ (X_sub_C_ne_zero r)
      have hdeg : q.natDegree < n := by
        rw [← hn]
        have := natDegree_mul hX hq0
        rw [← hq, natDegree_pow, natDegree_X_sub_C] at this
        omega
      have hq2 : ∀ s ∈ Set.Ioo (-1 : ℝ) 1, Even (q.rootMultiplicity s) := by
        intro s hs
        have hm : p.rootMultiplicity s = ((X - C r) ^ p.rootMultiplicity r).rootMultiplicity s + q.rootMultiplicity s := by
          conv_lhs => rw [hq]
          exact rootMultiplicity_mul (by rw [← hq]; exact hp)
        by_cases hsr : s = r
        · subst hsr
          rw [rootMultiplicity_X_sub_C_pow] at hm
          have : q.rootMultiplicity s = 0 := by omega
          rw [this]; exact Even.zero
        · have h0 : ((X - C r) ^ p.rootMultiplicity r).rootMultiplicity s = 0 := by
            apply rootMultiplicity_eq_zero
            simp only [IsRoot, eval_pow, eval_sub, eval_X, eval_C]
            exact pow_ne_zero _ (sub_ne_zero.2 hsr)
          rw [h0, zero_add] at hm
          rw [← hm]; exact h s hs
      have hval : ∀ x, p.eval x = (x - r) ^ p.rootMultiplicity r * q.eval x := by
        intro x
        conv_lhs => rw [hq]
        simp
      have hpos : ∀ x : ℝ, 0 ≤ (x - r) ^ p.rootMultiplicity r := fun x => hev.pow_nonneg _
      rcases ih _ hdeg q hq0 hq2 rfl with h1 | h1
      · exact Or.inl fun x hx => by rw [hval]; exact mul_nonneg (hpos x) (h1 x hx)
      · exact Or.inr fun x hx => by rw [hval]; exact mul_nonpos_of_nonneg_of_nonpos (hpos x) (h1 x hx)
    · push_neg at hr
      rcases sign_of_no_root p hr with h1 | h1
      · exact Or.inl fun x hx => (h1 x hx).le
      · exact Or.inr fun x hx => (h1 x hx).le

/-- A nonzero polynomial that is nonnegative on (-1, 1) has positive integral. -/
theorem pint_pos (p : ℝ[X]) (hp : p ≠ 0) (h : ∀ x ∈ Set.Ioo (-1 : ℝ) 1, 0 ≤ p.eval x) : 0 < pint p := by
  unfold pint
  have hcont : ContinuousOn (fun x => p.eval x) (Set.Icc (-1 : ℝ) 1) := p.continuous.continuousOn
  have hne : ∃ c ∈ Set.Ioo (-1 : ℝ) 1, 0 < p.eval c := by
    by_contra hc
    push_neg at hc
    have hz : ∀ x ∈ Set.Ioo (-1 : ℝ) 1, p.eval x = 0 := fun x hx => le_antisymm (hc x hx) (h x hx)
    exact hp (eq_zero_of_infinite_isRoot p ((Set.Ioo_infinite (by norm_num : (-1 : ℝ) < 1)).mono hz))
  have hcl : ∀ x ∈ Set.Icc (-1 : ℝ) 1, 0 ≤ p.eval x := by
    intro x hx
    have : x ∈ closure (Set.Ioo (-1 : ℝ) 1) := by rw [closure_Ioo (by norm_num)]; exact hx
    exact closure_minimal (t := {x | 0 ≤ p.eval x}) h (isClosed_le continuous_const p.continuous) this
  obtain ⟨c, hc, hc0⟩ := hne
  exact intervalIntegral.integral_pos (by norm_num) hcont (fun x hx => hcl x ⟨hx.1.le, hx.2⟩)
    ⟨c, Set.Ioo_subset_Icc_self hc, hc0⟩

theorem jw_nonneg (a b : ℕ) (x : ℝ) (hx : x ∈ Set.Ioo (-1 : ℝ) 1) : 0 < (jw a b).eval x := by
  rw [jw_eval]
  have h1 : 0 < 1 - x := by linarith [hx.2]
  have h2 : 0 < 1 + x := by linarith [hx.1]
  positivity

theorem jacobiPoly_ne_zero (a b n : ℕ) : jacobiPoly (a : ℝ) b n ≠ 0 := by
  intro h
  have hp := (jacobiPoly_lead_pos (a : ℝ) b (by linarith [Nat.cast_nonneg (α := ℝ) a])
    (by linarith [Nat.cast_nonneg (α := ℝ) b]) n).ne'
  rw [h] at hp
  exact hp (coeff_zero n)

theorem jw_ne_zero (a b : ℕ) : jw a b ≠ 0 := by
  intro h
  have := jw_nonneg a b 0 (by norm_num)
  rw [h] at this
  simp at this

/-- `P_n^(a,b)` has `n` distinct roots in (-1, 1). -/
theorem jacobi_roots (a b n : ℕ) : ∃ S : Finset ℝ, S.card = n ∧
    ∀ r ∈ S, r ∈ Set.Ioo (-1 : ℝ) 1 ∧ (jacobiPoly (a : ℝ) b n).eval r = 0 := by
  classical
  set P := jacobiPoly (a : ℝ) b n with hP
  have hP0 : P ≠ 0 := jacobiPoly_ne_zero a b n
  set S := P.roots.toFinset.filter (fun r => r ∈ Set.Ioo (-1 : ℝ) 1 ∧ Odd (P.rootMultiplicity r)) with hS
  have hmem : ∀ r, r ∈ S ↔ r ∈ Set.Ioo (-1 : ℝ) 1 ∧ Odd (P.rootMultiplicity r) := by
    intro r
    rw [hS, Finset.mem_filter, Multiset.mem_toFinset, mem_roots hP0]
    constructor
    · exact fun h => h.2
    · intro h
      refine ⟨?_, h⟩
      by_contra hr
      rw [rootMultiplicity_eq_zero hr] at h
      exact (Nat.not_odd_iff_even.2 Even.zero) h.2
  have hroot : ∀ r ∈ S, P.eval r = 0 := fun r hr => by
    rw [hS, Finset.mem_filter, Multiset.mem_toFinset, mem_roots hP0] at hr
    exact hr.1
  have hcard : n ≤ S.card := by
    by_contra hlt
    push_neg at hlt
    set q : ℝ[X] := ∏ r ∈ S, (X - C r) with hq
    have hq0 : q ≠ 0 := Finset.prod_ne_zero_iff.2 fun r _ => X_sub_C_ne_zero r
    have hqd : q.natDegree = S.card := by
      rw [hq, natDegree_prod _ _ (fun r _ => X_sub_C_ne_zero r)]; simp
    have hqm : ∀ s, q.rootMultiplicity s = if s ∈ S then 1 else 0 := by
      intro s
      rw [← count_roots, hq, roots_prod_X_sub_C]
      split_ifs with hs
      · exact Multiset.count_eq_one_of_mem S.nodup hs
      · exact Multiset.count_eq_zero_of_notMem hs
    have horth := pint_orthogonal n a b q (by
      rw [degree_eq_natDegree hq0, hqd]; exact_mod_cast hlt)
    have hev : ∀ r ∈ Set.Ioo (-1 : ℝ) 1, Even ((P * q).rootMultiplicity r) := by
      intro r hr
      rw [rootMultiplicity_mul (mul_ne_zero hP0 hq0), hqm]
      split_ifs with hs
      · exact ((hmem r).1 hs).2.add_one
      · have : ¬ Odd (P.rootMultiplicity r) := fun ho => hs ((hmem r).2 ⟨hr, ho⟩)
        simpa using Nat.not_odd_iff_even.1 this
    have hne : jw a b * P * q ≠ 0 := mul_ne_zero (mul_ne_zero (jw_ne_zero a b) hP0) hq0
    rcases even_sign (P * q) (mul_ne_zero hP0 hq0) hev with h1 | h1
    · have := pint_pos (jw a b * P * q) hne (fun x hx => by
        have := mul_nonneg (jw_nonneg a b x hx).le (h1 x hx)
        rw [mul_assoc, eval_mul]; exact this)
      linarith
    · have := pint_pos (-(jw a b * P * q)) (neg_ne_zero.2 hne) (fun x hx => by
        have := mul_nonpos_of_nonneg_of_nonpos (jw_nonneg a b x hx).le (h1 x hx)
        rw [mul_assoc, eval_neg, eval_mul]; linarith)
      rw [pint_neg] at this
      linarith
  have hcard2 : S.card ≤ n := by
    have h1 : S.card ≤ P.roots.toFinset.card := Finset.card_le_card (Finset.filter_subset _ _)
    have h2 := (Multiset.toFinset_card_le P.roots).trans (card_roots' P)
    exact (h1.trans h2).trans (jacobiPoly_lead (a : ℝ) b n).2
  exact ⟨S, le_antisymm hcard2 hcard, fun r hr => ⟨((hmem r).1 hr).1, hroot r hr⟩⟩

/-- Any `n` distinct roots are all the roots; they lie in (-1, 1). -/
theorem jacobi_root_mem (a b n : ℕ) (x : ℝ) (hx : (jacobiPoly (a : ℝ) b n).eval x = 0) : x ∈ Set.Ioo (-1 : ℝ) 1 := by
  classical
  obtain ⟨S, hS, hr⟩ := jacobi_roots a b n
  by_contra hn
  have hxS : x ∉ S := fun h => hn (hr x h).1
  have h1 : (insert x S).card ≤ (jacobiPoly (a : ℝ) b n).roots.toFinset.card := by
    apply Finset.card_le_card
    intro y hy
    rw [Multiset.mem_toFinset, mem_roots (jacobiPoly_ne_zero a b n)]
    rcases Finset.mem_insert.1 hy with rfl | hy
    · exact hx
    · exact (hr y hy).2
  have h2 := (Multiset.toFinset_card_le (jacobiPoly (a : ℝ) b n).roots).trans (card_roots' _)
  have h3 := (jacobiPoly_lead (a : ℝ) b n).2
  rw [Finset.card_insert_of_notMem hxS] at h1
  omega

end FIAT
