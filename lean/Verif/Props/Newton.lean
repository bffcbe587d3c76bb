/-
C70: the Newton iteration for the Gauss-Jacobi points.
-/
import Verif.Model.Newton
import Verif.Props.Gauss

namespace FIAT
open Polynomial

/-- The logarithmic derivative of `P_m^(a,b)`. -/
theorem jacobi_log_derivative (a b m : ℕ) {S : Finset ℝ} (hc : S.card = m) (hS : ∀ ξ ∈ S, evalJacobi (a : ℝ) b m ξ = 0) (r : ℝ) :
    (r ∉ S → evalJacobi (a : ℝ) b m r ≠ 0 ∧
      evalJacobiDeriv (a : ℝ) b m r = evalJacobi (a : ℝ) b m r * ∑ ξ ∈ S, 1 / (r - ξ)) ∧
    (r ∈ S → evalJacobiDeriv (a : ℝ) b m r ≠ 0) := by
  classical
  have h0 := jacobiPoly_ne_zero a b m
  have hsub : S.val ≤ (jacobiPoly (a : ℝ) b m).roots := by
    rw [Multiset.le_iff_subset S.nodup]
    intro x hx
    rw [mem_roots h0]
    have := hS x hx
    rw [evalJacobi_nat] at this
    exact this
  have hdeg : (jacobiPoly (a : ℝ) b m).natDegree ≤ m := (jacobiPoly_lead (a : ℝ) b m).2
  have hroots : (jacobiPoly (a : ℝ) b m).roots = S.val := by
    refine (Multiset.eq_of_le_of_card_le hsub ?_).symm
    exact (card_roots' _).trans (hdeg.trans (by rw [← hc]; rfl))
  have hsp : (jacobiPoly (a : ℝ) b m).Splits := by
    rw [splits_iff_card_roots, hroots]
    refine le_antisymm ?_ ?_
    · rw [← hroots]; exact card_roots' _
    · exact hdeg.trans (by rw [← hc]; rfl)
  constructor
  · intro hr
    have h1 : (jacobiPoly (a : ℝ) b m).eval r ≠ 0 := by
      intro h2
      have h3 : r ∈ (jacobiPoly (a : ℝ) b m).roots := (mem_roots h0).2 h2
      rw [hroots] at h3
      exact hr h3
    rw [evalJacobi_nat, evalJacobiDeriv_nat]
    refine ⟨h1, ?_⟩
    rw [hsp.eval_derivative_eq_eval_mul_sum h1, hroots]
    rfl
  · intro hr
    rw [evalJacobiDeriv_nat]
    have h1 : (jacobiPoly (a : ℝ) b m).rootMultiplicity r = 1 := by
      rw [← count_roots, hroots, Multiset.count_eq_one_of_mem S.nodup hr]
    intro h2
    have h3 : r ∈ (jacobiPoly (a : ℝ) b m).roots := by rw [hroots]; exact hr
    have := (one_lt_rootMultiplicity_iff_isRoot h0).2 ⟨(mem_roots h0).1 h3, h2⟩
    omega

theorem deflationSum_eq (xs : List ℝ) (r : ℝ) : deflationSum xs r = if r ∈ xs then none else some (xs.map fun x => 1 / (r - x)).sum := by
  unfold deflationSum
  have main : ∀ (xs : List ℝ) (s : ℝ), xs.foldlM (fun (s : ℝ) (xi : ℝ) => if r - xi = 0 then none else some (s + 1 / (r - xi))) s =
      if r ∈ xs then none else some (s + (xs.map fun x => 1 / (r - x)).sum) := by
    intro xs
    induction xs with
    | nil => intro s; simp
    | cons x xs ih =>
      intro s
      rw [List.foldlM_cons]
      by_cases hx : r = x
      · rw [if_pos (by rw [hx, sub_self])]
        simp [hx]
      · rw [if_neg (sub_ne_zero.2 hx)]
        show (xs.foldlM _ (s + 1 / (r - x))) = _
        rw [ih]
        simp only [List.mem_cons, hx, false_or, List.map_cons, List.sum_cons, add_assoc]
  rw [main]
  simp

/-- One pass of the loop at a point that is not a root. -/
theorem newton_step_eq (a b m : ℕ) {S : Finset ℝ} (hc : S.card = m) (hS : ∀ ξ ∈ S, evalJacobi (a : ℝ) b m ξ = 0) (xs : List ℝ) {r : ℝ}
    (hr : r ∉ S) {p : ℝ × ℝ} : newtonStep a b m xs r = some p ↔ r ∉ xs ∧ p.1 ≠ 0 ∧
      ∑ ξ ∈ S, 1 / (r - ξ) - (xs.map fun x => 1 / (r - x)).sum = 1 / p.1 ∧ p.2 = r - p.1 := by
  obtain ⟨h1, h2⟩ := (jacobi_log_derivative a b m hc hS r).1 hr
  unfold newtonStep
  rw [deflationSum_eq]
  by_cases hx : r ∈ xs
  · simp [hx]
  rw [if_neg hx, Option.bind_some, h2]
  simp only [← mul_sub]
  set σ := ∑ ξ ∈ S, 1 / (r - ξ) - (xs.map fun x => 1 / (r - x)).sum with hσ
  set f := evalJacobi (a : ℝ) b m r with hf
  rw [← div_div, div_self h1]
  by_cases h0 : σ = 0
  · rw [if_pos (by rw [h0, mul_zero]), h0]
    simp only [reduceCtorEq, false_iff, not_and]
    intro _ h3 h4
    exact absurd h4.symm (one_div_ne_zero h3)
  · rw [if_neg (mul_ne_zero h1 h0), Option.some.injEq]
    constructor
    · rintro rfl
      refine ⟨hx, one_div_ne_zero h0, ?_, rfl⟩
      simp
    · rintro ⟨-, h3, h4, h5⟩
      refine Prod.ext ?_ ?_
      · show 1 / σ = p.1
        rw [h4, one_div_one_div]
      · show r - 1 / σ = p.2
        rw [h4, one_div_one_div, h5]

/-- At a root that has not been deflated the step is zero. -/
theorem newton_step_root (a b m : ℕ) {S : Finset ℝ} (hc : S.card = m) (hS : ∀ ξ ∈ S, evalJacobi (a : ℝ) b m ξ = 0) (xs : List ℝ) {r : ℝ}
    (hr : r ∈ S) : newtonStep a b m xs r = if r ∈ xs then none else some (0, r) := by
  have h1 := (jacobi_log_derivative a b m hc hS r).2 hr
  unfold newtonStep
  rw [deflationSum_eq, hS r hr]
  by_cases hx : r ∈ xs
  · simp [hx]
  · rw [if_neg hx, if_neg hx, Option.bind_some]
    simp only [zero_mul, sub_zero, zero_div]
    rw [if_neg h1]

/-- The a posteriori estimate: a small step means that a root or one of the previous points is near. -/
theorem newton_step_near (a b m : ℕ) {S : Finset ℝ} (hc : S.card = m) (hS : ∀ ξ ∈ S, evalJacobi (a : ℝ) b m ξ = 0) (xs : List ℝ) {r : ℝ}
    {p : ℝ × ℝ} (h : newtonStep a b m xs r = some p) :
    p.2 = r - p.1 ∧ ((∃ ξ ∈ S, |r - ξ| ≤ (m + xs.length) * |p.1|) ∨ ∃ x ∈ xs, |r - x| ≤ (m + xs.length) * |p.1|) := by
  by_cases hr : r ∈ S
  · rw [newton_step_root a b m hc hS xs hr] at h
    split_ifs at h
    rw [Option.some.injEq] at h
    subst h
    exact ⟨by simp, Or.inl ⟨r, hr, by simp⟩⟩
  · rw [newton_step_eq a b m hc hS xs hr] at h
    obtain ⟨h1, h2, h3, h4⟩ := h
    refine ⟨h4, ?_⟩
    by_contra hcon
    push Not at hcon
    obtain ⟨c1, c2⟩ := hcon
    have hpos : 0 < |p.1| := abs_pos.2 h2
    have key : ∀ L : List ℝ, (∀ y ∈ L, |y| * ((m + xs.length) * |p.1|) < 1) → L ≠ [] → |L.sum| * ((m + xs.length) * |p.1|) < L.length := by
      have ht : 0 ≤ ((m + xs.length) * |p.1| : ℝ) := by positivity
      intro L
      induction L with
      | nil => intro _ h; exact absurd rfl h
      | cons y L ih =>
        intro hL _
        have h5 := hL y (by simp)
        rw [List.sum_cons, List.length_cons, Nat.cast_succ]
        have h6 : |y + L.sum| * ((m + xs.length) * |p.1|) ≤ |y| * ((m + xs.length) * |p.1|) + |L.sum| * ((m + xs.length) * |p.1|) := by
          rw [← add_mul]
          exact mul_le_mul_of_nonneg_right (abs_add_le _ _) ht
        rcases L with _ | ⟨z, L⟩
        · simp only [List.sum_nil, abs_zero, zero_mul, add_zero] at h6 ⊢
          simp only [List.length_nil, Nat.cast_zero, zero_add]
          exact h5
        · have := ih (fun y hy => hL y (List.mem_cons_of_mem _ hy)) (by simp)
          linarith
    have hlt : ∀ x : ℝ, r ≠ x → (m + xs.length) * |p.1| < |r - x| → |1 / (r - x)| * ((m + xs.length) * |p.1|) < 1 := by
      intro x hx h5
      rw [abs_div, abs_one, div_mul_eq_mul_div, one_mul, div_lt_one (abs_pos.2 (sub_ne_zero.2 hx))]
      exact h5
    have hsum : ((S.toList.map fun ξ => 1 / (r - ξ)) ++ xs.map fun x => -(1 / (r - x))).sum = 1 / p.1 := by
      rw [List.sum_append, Finset.sum_map_toList, ← h3, sub_eq_add_neg]
      congr 1
      clear key hlt c1 c2 h3 h1
      induction xs with
      | nil => simp
      | cons x xs ih => rw [List.map_cons, List.sum_cons, ih, List.map_cons, List.sum_cons]; ring
    have hne : ((S.toList.map fun ξ => 1 / (r - ξ)) ++ xs.map fun x => -(1 / (r - x))) ≠ [] := by
      intro h5
      rw [h5, List.sum_nil] at hsum
      exact one_div_ne_zero h2 hsum.symm
    have h5 := key _ (by
      intro y hy
      rw [List.mem_append] at hy
      rcases hy with hy | hy
      · obtain ⟨ξ, hξ, rfl⟩ := List.mem_map.1 hy
        have hξ := Finset.mem_toList.1 hξ
        exact hlt ξ (fun e => hr (e ▸ hξ)) (c1 ξ hξ)
      · obtain ⟨x, hx, rfl⟩ := List.mem_map.1 hy
        rw [abs_neg]
        exact hlt x (fun e => h1 (e ▸ hx)) (c2 x hx)) hne
    rw [hsum, abs_div, abs_one, List.length_append, List.length_map, List.length_map, Finset.length_toList, hc, Nat.cast_add] at h5
    have h6 : 1 / |p.1| * ((m + xs.length) * |p.1|) = (m + xs.length : ℝ) := by field_simp
    linarith

/-- What `newtonLoop` returns is the result of a pass, or the loop was left without one. -/
theorem newton_loop_last (a b : ℝ) (m : ℕ) (xs : List ℝ) (n : ℕ) (hn : 0 < n) (d r : ℝ) {p : ℝ × ℝ}
    (h : newtonLoop a b m xs n d r = some p) : ∃ r', newtonStep a b m xs r' = some p := by
  induction n generalizing d r with
  | zero => omega
  | succ n ih =>
    unfold newtonLoop at h
    rw [Option.bind_eq_some_iff] at h
    obtain ⟨q, h1, h2⟩ := h
    split_ifs at h2 with h3
    · rw [Option.some.injEq] at h2
      subst h2
      exact ⟨r, h1⟩
    · rcases n with _ | n
      · unfold newtonLoop at h2
        rw [Option.some.injEq] at h2
        refine ⟨r, ?_⟩
        rw [h1, ← h2]
      · exact ih (by omega) _ _ h2

/-- C70: a posteriori.  In exact arithmetic, if the loop of every point was left because the last step was below the tolerance, then
point number `k` is within `(k + 1) (m + k + 1) 1e-8` of a root. -/
theorem gauss_points_near_roots (a b m : ℕ) {L : List (ℝ × ℝ)} (h : computeGaussJacobiPoints a b m = some L)
    (hconv : ∀ p ∈ L, |p.1| < 1e-8) :
    L.length = m ∧ ∀ (k : ℕ) p, L[k]? = some p → ∃ ξ, evalJacobi (a : ℝ) b m ξ = 0 ∧ -1 < ξ ∧ ξ < 1 ∧
      |p.2 - ξ| ≤ (k + 1) * (m + k + 1) * 1e-8 := by
  obtain ⟨S', hS'⟩ := gauss_nodes_exist a b m
  classical
  set S := S'.toFinset with hSd
  have hc : S.card = m := by rw [hSd, List.toFinset_card_of_nodup hS'.2.1, hS'.1]
  have hS : ∀ ξ ∈ S, evalJacobi (a : ℝ) b m ξ = 0 := fun ξ hξ => hS'.2.2 ξ (List.mem_toFinset.1 hξ)
  have main : ∀ n (L : List (ℝ × ℝ)), (List.range n).foldlM (fun (x : List (ℝ × ℝ)) (k : ℕ) =>
      (newtonLoop (a : ℝ) b m (x.map Prod.snd) newtonMaxIter (2 * newtonEps) (newtonGuess m k (x.map Prod.snd))).map fun p => x ++ [p]) [] = some L →
      (∀ p ∈ L, |p.1| < 1e-8) → L.length = n ∧ ∀ (k : ℕ) p, L[k]? = some p → ∃ ξ ∈ S, |p.2 - ξ| ≤ (k + 1) * (m + k + 1) * 1e-8 := by
    intro n
    induction n with
    | zero =>
      intro L hL _
      have : L = [] := by simpa using hL.symm
      subst this
      exact ⟨rfl, fun k p hk => by simp at hk⟩
    | succ n ih =>
      intro L hL hconv
      rw [List.range_succ, List.foldlM_append] at hL
      simp only [List.foldlM_cons, List.foldlM_nil, Option.bind_eq_bind, Option.pure_def, Option.bind_some, Option.bind_fun_some] at hL
      rw [Option.bind_eq_some_iff] at hL
      obtain ⟨x, hx, hL⟩ := hL
      rw [Option.map_eq_some_iff] at hL
      obtain ⟨p, hp, rfl⟩ := hL
      obtain ⟨i1, i2⟩ := ih x hx fun p hp => hconv p (by simp [hp])
      refine ⟨by simp [i1], fun k q hq => ?_⟩
      by_cases hk : k < x.length
      · rw [List.getElem?_append_left hk] at hq
        exact i2 k q hq
      · have hkn : k = n := by
          have := (List.getElem?_eq_some_iff.1 hq).1
          rw [List.length_append, List.length_singleton] at this
          omega
        subst hkn
        rw [List.getElem?_append_right (by omega), i1, Nat.sub_self] at hq
        have hqp : p = q := by simpa using hq
        subst hqp
        obtain ⟨r, hr⟩ := newton_loop_last _ _ _ _ _ (by unfold newtonMaxIter; omega) _ _ hp
        obtain ⟨e1, e2⟩ := newton_step_near a b m hc hS _ hr
        have hδ : |p.1| ≤ 1e-8 := (hconv p (by simp)).le
        have hlen : ((x.map Prod.snd).length : ℝ) = k := by rw [List.length_map, i1]
        rw [hlen] at e2
        have hmk : (0 : ℝ) ≤ m + k := by positivity
        have hstep : ((m : ℝ) + k) * |p.1| ≤ (m + k) * 1e-8 := mul_le_mul_of_nonneg_left hδ hmk
        have hm0 : (0 : ℝ) ≤ m := by positivity
        have hk0 : (0 : ℝ) ≤ k := by positivity
        have htri : ∀ y : ℝ, |p.2 - y| ≤ |r - y| + |p.1| := by
          intro y
          rw [e1, show r - p.1 - y = (r - y) + -p.1 by ring]
          refine (abs_add_le _ _).trans ?_
          rw [abs_neg]
        rcases e2 with ⟨ξ, hξ, h1⟩ | ⟨y, hy, h1⟩
        · refine ⟨ξ, hξ, (htri ξ).trans ?_⟩
          nlinarith [mul_nonneg hk0 hmk]
        · obtain ⟨q, hq, rfl⟩ := List.mem_map.1 hy
          obtain ⟨i, hi⟩ := List.getElem?_of_mem hq
          obtain ⟨ξ, hξ, h2⟩ := i2 i q hi
          refine ⟨ξ, hξ, ?_⟩
          have hik : i < k := by rw [← i1]; exact (List.getElem?_eq_some_iff.1 hi).1
          have hik' : (i : ℝ) + 1 ≤ k := by exact_mod_cast hik
          have hi0 : (0 : ℝ) ≤ i := by positivity
          have h3 : ((i : ℝ) + 1) * (m + i + 1) * 1e-8 ≤ k * (m + k) * 1e-8 := by
            refine mul_le_mul_of_nonneg_right ?_ (by norm_num)
            exact mul_le_mul hik' (by linarith) (by linarith) hk0
          have h4 : |p.2 - ξ| ≤ |p.2 - q.2| + |q.2 - ξ| := by
            have := abs_add_le (p.2 - q.2) (q.2 - ξ)
            rwa [sub_add_sub_cancel] at this
          have h5 := htri q.2
          nlinarith
  obtain ⟨h1, h2⟩ := main m L h hconv
  refine ⟨h1, fun k p hk => ?_⟩
  obtain ⟨ξ, hξ, h3⟩ := h2 k p hk
  have := gauss_nodes_interior a b m S' hS' ξ (List.mem_toFinset.1 hξ)
  exact ⟨ξ, hS ξ hξ, this.1, this.2, h3⟩

/-- C70: when moreover the points are well separated, they are the `m` Gauss-Jacobi nodes up to the tolerance. -/
theorem gauss_points_separated (a b m : ℕ) {L : List (ℝ × ℝ)} (h : computeGaussJacobiPoints a b m = some L)
    (hconv : ∀ p ∈ L, |p.1| < 1e-8) (hsep : L.Pairwise fun p q => 4 * (m : ℝ) ^ 2 * 1e-8 < |p.2 - q.2|) :
    ∃ nodes, GaussNodes a b m nodes ∧ List.Forall₂ (fun p ξ => |p.2 - ξ| ≤ 2 * (m : ℝ) ^ 2 * 1e-8) L nodes := by
  obtain ⟨h1, h2⟩ := gauss_points_near_roots a b m h hconv
  have h3 : ∀ k : Fin L.length, ∃ ξ, evalJacobi (a : ℝ) b m ξ = 0 ∧ |L[k].2 - ξ| ≤ 2 * (m : ℝ) ^ 2 * 1e-8 := by
    intro k
    obtain ⟨ξ, x1, -, -, x2⟩ := h2 k L[k] (List.getElem?_eq_getElem k.2)
    refine ⟨ξ, x1, x2.trans ?_⟩
    refine mul_le_mul_of_nonneg_right ?_ (by norm_num)
    have hk : ((k : ℕ) : ℝ) + 1 ≤ m := by
      have : (k : ℕ) + 1 ≤ m := h1 ▸ k.2
      exact_mod_cast this
    have hk0 : (0 : ℝ) ≤ (k : ℕ) := by positivity
    nlinarith
  choose ξ x1 x2 using h3
  refine ⟨List.ofFn ξ, ⟨by simp [h1], ?_, ?_⟩, ?_⟩
  · rw [List.nodup_ofFn]
    have hlt : ∀ i j : Fin L.length, i < j → ξ i ≠ ξ j := by
      intro i j hij he
      have h4 := List.pairwise_iff_getElem.1 hsep i j i.2 j.2 hij
      have h5 := x2 i
      have h6 := x2 j
      rw [← he] at h6
      have h7 := abs_sub_le L[i].2 (ξ i) L[j].2
      rw [abs_sub_comm (ξ i)] at h7
      have h8 : 4 * (m : ℝ) ^ 2 * 1e-8 < |L[i].2 - L[j].2| := h4
      linarith
    intro i j hij
    rcases lt_trichotomy i j with h4 | h4 | h4
    · exact absurd hij (hlt i j h4)
    · exact h4
    · exact absurd hij.symm (hlt j i h4)
  · intro x hx
    obtain ⟨i, rfl⟩ := (List.mem_ofFn' ξ x).1 hx
    exact x1 i
  · rw [List.forall₂_iff_get]
    refine ⟨by simp, fun i hi hi' => ?_⟩
    have := x2 ⟨i, hi⟩
    simpa using this

end FIAT
