/-
C70: monotone convergence of the Newton iteration, and the first Gauss-Legendre point.
-/
import Verif.Props.Newton
import Verif.Lemmas.LegendreTrig

namespace FIAT

/-- Specification of the situation in which the iteration is monotone: `S` is the set of roots, `xs` are roots already found, the
remaining ones are `B`, `ξ` is the smallest of these, and `r` lies between `xs` and `ξ`. -/
structure NewtonStart (a b m : ℕ) (S : Finset ℝ) (xs : List ℝ) (B : Finset ℝ) (ξ r : ℝ) : Prop where
  card : S.card = m
  root : ∀ x ∈ S, evalJacobi (a : ℝ) b m x = 0
  nodup : xs.Nodup
  found : ∀ x ∈ xs, x ∈ S
  rest : ∀ x, x ∈ B ↔ x ∈ S ∧ x ∉ xs
  first : ξ ∈ B
  least : ∀ x ∈ B, ξ ≤ x
  right : ∀ x ∈ xs, x < r
  left : r ≤ ξ

variable {a b m : ℕ} {S : Finset ℝ} {xs : List ℝ} {B : Finset ℝ} {ξ r : ℝ}

theorem newton_monotone_step (h : NewtonStart a b m S xs B ξ r) :
    ∃ p, newtonStep a b m xs r = some p ∧ p.2 = r - p.1 ∧ p.1 ≤ 0 ∧ p.2 ≤ ξ ∧ ξ - r ≤ B.card * |p.1| := by
  classical
  have hrx : r ∉ xs := fun hc => lt_irrefl _ (h.right r hc)
  rcases h.left.eq_or_lt with rfl | hlt
  · refine ⟨(0, r), ?_, by simp, le_rfl, le_rfl, by simp⟩
    rw [newton_step_root a b m h.card h.root xs ((h.rest r).1 h.first).1, if_neg hrx]
  have hrS : r ∉ S := by
    intro hc
    have := h.least r ((h.rest r).2 ⟨hc, hrx⟩)
    linarith
  have hS : S = xs.toFinset ∪ B := by
    ext x
    rw [Finset.mem_union, List.mem_toFinset, h.rest]
    constructor
    · intro hx
      by_cases h1 : x ∈ xs
      · exact Or.inl h1
      · exact Or.inr ⟨hx, h1⟩
    · rintro (hx | hx)
      · exact h.found x hx
      · exact hx.1
  have hdisj : Disjoint xs.toFinset B := by
    rw [Finset.disjoint_left]
    intro x hx hB
    exact ((h.rest x).1 hB).2 (List.mem_toFinset.1 hx)
  have hσ : ∑ x ∈ S, 1 / (r - x) - (xs.map fun x => 1 / (r - x)).sum = -∑ x ∈ B, 1 / (x - r) := by
    rw [hS, Finset.sum_union hdisj, List.sum_toFinset _ h.nodup, add_sub_cancel_left, ← Finset.sum_neg_distrib]
    refine Finset.sum_congr rfl fun x hx => ?_
    rw [← one_div_neg_eq_neg_one_div, neg_sub]
  have hpos : ∀ x ∈ B, 0 < x - r := fun x hx => by have := h.least x hx; linarith
  set σ := ∑ x ∈ B, 1 / (x - r) with hσd
  have hσ1 : 1 / (ξ - r) ≤ σ := Finset.single_le_sum (f := fun x => 1 / (x - r)) (fun x hx => (one_div_pos.2 (hpos x hx)).le) h.first
  have hξ : 0 < ξ - r := by linarith
  have hσ0 : 0 < σ := lt_of_lt_of_le (one_div_pos.2 hξ) hσ1
  have hσ2 : σ ≤ B.card * (1 / (ξ - r)) := by
    rw [← nsmul_eq_mul]
    refine Finset.sum_le_card_nsmul _ _ _ fun x hx => ?_
    exact one_div_le_one_div_of_le hξ (by have := h.least x hx; linarith)
  refine ⟨(-(1 / σ), r + 1 / σ), ?_, by simp, ?_, ?_, ?_⟩
  · rw [newton_step_eq a b m h.card h.root xs hrS]
    refine ⟨hrx, neg_ne_zero.2 (one_div_ne_zero hσ0.ne'), ?_, by simp⟩
    rw [hσ, one_div_neg_eq_neg_one_div, one_div_one_div]
  · simpa using hσ0.le
  · have : 1 / σ ≤ ξ - r := by
      rw [div_le_iff₀ hσ0]
      rw [div_le_iff₀ hξ] at hσ1
      linarith
    show r + 1 / σ ≤ ξ
    linarith
  · show ξ - r ≤ B.card * |-(1 / σ)|
    rw [abs_neg, abs_of_pos (one_div_pos.2 hσ0), mul_one_div, le_div_iff₀ hσ0]
    rw [mul_one_div, le_div_iff₀ hξ] at hσ2
    linarith

/-- C70: from the left of the smallest root that remains, the loop raises no exception, its iterates increase and never pass that root,
and when it is left the error is at most `(n - 1) 1e-8` (tolerance reached) or has shrunk by `(1 - 1/n)` in every pass; `n` is the
number of remaining roots. -/
theorem newton_monotone (n : ℕ) (d : ℝ) (h : NewtonStart a b m S xs B ξ r) :
    ∃ p, newtonLoop a b m xs n d r = some p ∧ r ≤ p.2 ∧ p.2 ≤ ξ ∧
      ((|p.1| < 1e-8 ∧ ξ - p.2 ≤ (B.card - 1) * 1e-8) ∨ ξ - p.2 ≤ (1 - 1 / B.card) ^ n * (ξ - r)) := by
  have hB : (1 : ℝ) ≤ B.card := by exact_mod_cast Finset.card_pos.2 ⟨ξ, h.first⟩
  induction n generalizing d r with
  | zero => exact ⟨(d, r), rfl, le_rfl, h.left, Or.inr (by simp)⟩
  | succ n ih =>
    obtain ⟨p, h1, h2, h3, h4, h5⟩ := newton_monotone_step h
    have habs : |p.1| = -p.1 := abs_of_nonpos h3
    rw [habs] at h5
    unfold newtonLoop
    rw [h1, Option.bind_some]
    by_cases hc : |p.1| < newtonEps
    · rw [if_pos hc]
      refine ⟨p, rfl, by linarith, h4, Or.inl ⟨hc, ?_⟩⟩
      have hc' : -p.1 < 1e-8 := by rw [← habs]; exact hc
      have : (B.card - 1 : ℝ) * -p.1 ≤ (B.card - 1) * 1e-8 := mul_le_mul_of_nonneg_left hc'.le (by linarith)
      nlinarith
    · rw [if_neg hc]
      have h' : NewtonStart a b m S xs B ξ p.2 :=
        ⟨h.card, h.root, h.nodup, h.found, h.rest, h.first, h.least, fun x hx => by have := h.right x hx; linarith, h4⟩
      obtain ⟨q, q1, q2, q3, q4⟩ := ih p.1 h'
      refine ⟨q, q1, by linarith, q3, q4.imp id fun q5 => q5.trans ?_⟩
      have h0 : 0 ≤ 1 - 1 / (B.card : ℝ) := by
        rw [sub_nonneg, div_le_one (by linarith)]
        exact hB
      rw [pow_succ, mul_assoc]
      refine mul_le_mul_of_nonneg_left ?_ (pow_nonneg h0 _)
      have h6 : (ξ - r) / B.card ≤ -p.1 := by
        rw [div_le_iff₀ (by linarith)]
        linarith
      have h7 : (1 - 1 / (B.card : ℝ)) * (ξ - r) = (ξ - r) - (ξ - r) / B.card := by ring
      rw [h7]
      linarith

/-- C70: for Gauss-Legendre rules with any number of points, the iteration for the first point starts to the left of all roots; its
loop ends without an exception at a point that is not to the right of the smallest root, with error at most `(m - 1) 1e-8` or
`2 (1 - 1/m)^100`. -/
theorem gauss_legendre_first_point (m : ℕ) (hm : 1 ≤ m) : ∃ ξ, evalJacobi (0 : ℝ) 0 m ξ = 0 ∧ (∀ η, evalJacobi (0 : ℝ) 0 m η = 0 → ξ ≤ η) ∧
    ∃ p, newtonLoop 0 0 m [] newtonMaxIter (2 * newtonEps) (newtonGuess m 0 []) = some p ∧ p.2 ≤ ξ ∧
      (ξ - p.2 ≤ (m - 1) * 1e-8 ∨ ξ - p.2 ≤ 2 * (1 - 1 / m) ^ 100) := by
  classical
  obtain ⟨xs, hx⟩ := gauss_nodes_exist 0 0 m
  have hne : xs.toFinset.Nonempty := by
    rw [List.toFinset_nonempty_iff]
    intro h0
    have := hx.1
    rw [h0, List.length_nil] at this
    omega
  have hcard : xs.toFinset.card = m := by rw [List.toFinset_card_of_nodup hx.2.1, hx.1]
  have hroot : ∀ x ∈ xs.toFinset, evalJacobi ((0 : ℕ) : ℝ) ((0 : ℕ) : ℝ) m x = 0 := fun x hx' => hx.2.2 x (List.mem_toFinset.1 hx')
  set ξ := xs.toFinset.min' hne with hξ
  have hξm : ξ ∈ xs.toFinset := Finset.min'_mem _ _
  have hle : ∀ x ∈ xs.toFinset, ξ ≤ x := fun x hx => Finset.min'_le _ _ hx
  have hz : ((0 : ℕ) : ℝ) = 0 := Nat.cast_zero
  have hint := gauss_nodes_interior 0 0 m xs hx
  have hguess : newtonGuess m 0 [] = -Real.cos (Real.pi / (2 * m)) := by
    unfold newtonGuess
    simp
  have hstart : NewtonStart 0 0 m xs.toFinset [] xs.toFinset ξ (newtonGuess m 0 []) := by
    refine ⟨hcard, hroot, List.nodup_nil, by simp, by simp, hξm, hle, by simp, ?_⟩
    rw [hguess]
    have h1 := hroot ξ hξm
    rw [evalJacobi_nat, hz] at h1
    exact legendre_root_ge m hm ξ h1 (hint ξ (List.mem_toFinset.1 hξm)).1
  obtain ⟨p, p1, p2, p3, p4⟩ := newton_monotone newtonMaxIter (2 * newtonEps) hstart
  rw [hz] at p1
  refine ⟨ξ, by have := hroot ξ hξm; rwa [hz] at this, fun η hη => hle η ?_, p, p1, p3, ?_⟩
  · by_contra hc
    have := ((jacobi_log_derivative 0 0 m hcard hroot η).1 hc).1
    rw [hz] at this
    exact this hη
  · rw [hcard] at p4
    rcases p4 with p4 | p4
    · exact Or.inl p4.2
    · refine Or.inr (p4.trans ?_)
      rw [mul_comm]
      have h0 : 0 ≤ 1 - 1 / (m : ℝ) := by
        have hm' : (1 : ℝ) ≤ m := by exact_mod_cast hm
        rw [sub_nonneg, div_le_one (by linarith)]
        exact hm'
      refine mul_le_mul_of_nonneg_right ?_ (pow_nonneg h0 _)
      have h1 := (hint ξ (List.mem_toFinset.1 hξm)).2
      rw [hguess]
      linarith [Real.cos_le_one (Real.pi / (2 * m))]

/-- The first point of the list is the one of `gauss_legendre_first_point`. -/
theorem gauss_points_head (a b : ℝ) (m : ℕ) (hm : 1 ≤ m) {L : List (ℝ × ℝ)} (h : computeGaussJacobiPoints a b m = some L) :
    ∃ p, L[0]? = some p ∧ newtonLoop a b m [] newtonMaxIter (2 * newtonEps) (newtonGuess m 0 []) = some p := by
  have main : ∀ (ks : List ℕ) (x : List (ℝ × ℝ)) (p : ℝ × ℝ), x[0]? = some p → ∀ L, ks.foldlM (fun (x : List (ℝ × ℝ)) (k : ℕ) =>
      (newtonLoop a b m (x.map Prod.snd) newtonMaxIter (2 * newtonEps) (newtonGuess m k (x.map Prod.snd))).map fun p => x ++ [p]) x = some L →
      L[0]? = some p := by
    intro ks
    induction ks with
    | nil =>
      intro x p hp L hL
      have : x = L := by simpa using hL
      rw [← this, hp]
    | cons k ks ih =>
      intro x p hp L hL
      rw [List.foldlM_cons, Option.bind_eq_bind, Option.bind_eq_some_iff] at hL
      obtain ⟨y, hy, hL⟩ := hL
      rw [Option.map_eq_some_iff] at hy
      obtain ⟨q, -, rfl⟩ := hy
      refine ih _ p ?_ L hL
      rw [List.getElem?_append_left (List.getElem?_eq_some_iff.1 hp).1, hp]
  obtain ⟨n, rfl⟩ : ∃ n, m = n + 1 := ⟨m - 1, by omega⟩
  unfold computeGaussJacobiPoints at h
  rw [List.range_succ_eq_map, List.foldlM_cons, Option.bind_eq_bind, Option.bind_eq_some_iff] at h
  obtain ⟨y, hy, hL⟩ := h
  rw [Option.map_eq_some_iff] at hy
  obtain ⟨p, hp, rfl⟩ := hy
  exact ⟨p, main _ _ p rfl L hL, hp⟩

end FIAT
