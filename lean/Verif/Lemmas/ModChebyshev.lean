/-
Orthogonal polynomials of a positive functional exist; the modified Chebyshev algorithm computes their recursion coefficients.
-/
import Verif.Model.JacLog
import Verif.Lemmas.GolubWelsch

namespace FIAT
open Polynomial

/-! ### Existence -/

section stieltjes
variable (L : ℝ[X] →ₗ[ℝ] ℝ)

/-- Two consecutive orthogonal polynomials. -/
noncomputable def stieltjes : ℕ → ℝ[X] × ℝ[X]
  | 0 => (1, X - C (L X / L 1))
  | k + 1 => ((stieltjes k).2, (X - C (L (X * (stieltjes k).2 * (stieltjes k).2) / L ((stieltjes k).2 * (stieltjes k).2))) * (stieltjes k).2 -
      C (L ((stieltjes k).2 * (stieltjes k).2) / L ((stieltjes k).1 * (stieltjes k).1)) * (stieltjes k).1)

noncomputable def stAlpha (k : ℕ) : ℝ := L (X * (stieltjes L k).1 * (stieltjes L k).1) / L ((stieltjes L k).1 * (stieltjes L k).1)

noncomputable def stBeta : ℕ → ℝ
  | 0 => L 1
  | k + 1 => L ((stieltjes L (k + 1)).1 * (stieltjes L (k + 1)).1) / L ((stieltjes L k).1 * (stieltjes L k).1)

theorem stieltjes_recPoly (k : ℕ) : (stieltjes L k).1 = recPoly (stAlpha L) (stBeta L) k ∧
    (stieltjes L k).2 = recPoly (stAlpha L) (stBeta L) (k + 1) := by
  induction k with
  | zero =>
    refine ⟨rfl, ?_⟩
    rw [recPoly_one]
    simp [stieltjes, stAlpha]
  | succ k ih =>
    refine ⟨ih.2, ?_⟩
    have h1 : (stieltjes L (k + 1)).1 = (stieltjes L k).2 := rfl
    rw [recPoly_step, ← ih.1, ← ih.2]
    simp only [stAlpha, stBeta, h1]
    rfl

/-- `q` is a multiple of a monic polynomial of degree `n` plus something of smaller degree. -/
theorem split_monic {p q : ℝ[X]} {n : ℕ} (hp : p.Monic) (hn : p.natDegree = n) (hq : q.degree < ((n + 1 : ℕ) : WithBot ℕ)) :
    ∃ (c : ℝ) (r : ℝ[X]), q = c • p + r ∧ r.degree < (n : WithBot ℕ) := by
  refine ⟨q.coeff n, q - q.coeff n • p, by ring, ?_⟩
  rw [degree_lt_iff_coeff_zero]
  intro m hm
  rw [coeff_sub, coeff_smul, smul_eq_mul]
  rcases eq_or_lt_of_le hm with h | h
  · rw [← h, ← hn, show p.coeff p.natDegree = 1 from hp.coeff_natDegree, mul_one, sub_self]
  · rw [coeff_eq_zero_of_degree_lt (lt_of_lt_of_le hq (by exact_mod_cast h)), coeff_eq_zero_of_natDegree_lt (p := p) (by omega), mul_zero, sub_zero]

/-- A functional that is positive on squares has orthogonal polynomials. -/
theorem isOrtho_exists (hL : ∀ p : ℝ[X], p ≠ 0 → 0 < L (p * p)) : ∃ alpha beta, IsOrtho L alpha beta := by
  refine ⟨stAlpha L, stBeta L, rfl, ?_⟩
  set P := recPoly (stAlpha L) (stBeta L) with hP
  have hm : ∀ k, (P k).Monic := fun k => recPoly_monic _ _ k
  have hd : ∀ k, (P k).natDegree = k := fun k => recPoly_degree _ _ k
  have hne : ∀ k, L (P k * P k) ≠ 0 := fun k => (hL _ (hm k).ne_zero).ne'
  have ha : ∀ k, stAlpha L k * L (P k * P k) = L (X * P k * P k) := by
    intro k
    rw [stAlpha, (stieltjes_recPoly L k).1, div_mul_cancel₀ _ (hne k)]
  have hb : ∀ k, stBeta L (k + 1) * L (P k * P k) = L (P (k + 1) * P (k + 1)) := by
    intro k
    rw [stBeta, (stieltjes_recPoly L k).1, (stieltjes_recPoly L (k + 1)).1, div_mul_cancel₀ _ (hne k)]
  have key : ∀ k : ℕ, (∀ q : ℝ[X], q.degree < (k : WithBot ℕ) → L (P k * q) = 0) ∧
      ∀ q : ℝ[X], q.degree < ((k + 1 : ℕ) : WithBot ℕ) → L (P (k + 1) * q) = 0 := by
    intro k
    induction k with
    | zero =>
      constructor
      · intro q hq
        have : q = 0 := by
          rw [← degree_eq_bot]
          rcases h : q.degree with _ | d
          · rfl
          · rw [h] at hq; exact absurd (WithBot.coe_lt_coe.1 hq) (Nat.not_lt_zero d)
        rw [this, mul_zero, map_zero]
      · intro q hq
        obtain ⟨c, r, rfl, hr⟩ := split_monic (hm 0) (hd 0) hq
        have hr0 : r = 0 := by
          rw [← degree_eq_bot]
          rcases h : r.degree with _ | d
          · rfl
          · rw [h] at hr; exact absurd (WithBot.coe_lt_coe.1 hr) (Nat.not_lt_zero d)
        have e : P (0 + 1) * (c • P 0 + r) = c • (X * P 0 * P 0 - stAlpha L 0 • (P 0 * P 0)) := by
          rw [hr0, add_zero, show P (0 + 1) = X - C (stAlpha L 0) from rfl, show P 0 = 1 from rfl]
          simp only [smul_eq_C_mul]; ring
        rw [e, map_smul, map_sub, map_smul, smul_eq_mul, smul_eq_mul, ha, sub_self, mul_zero]
    | succ k ih =>
      refine ⟨ih.2, fun q hq => ?_⟩
      obtain ⟨c, r, rfl, hr⟩ := split_monic (hm (k + 1)) (hd (k + 1)) hq
      obtain ⟨d, r', rfl, hr'⟩ := split_monic (hm k) (hd k) hr
      have hs : P (k + 2) = (X - C (stAlpha L (k + 1))) * P (k + 1) - C (stBeta L (k + 1)) * P k := recPoly_step _ _ k
      have z1 : L (P (k + 1) * P k) = 0 := ih.2 _ (by
        rw [degree_eq_natDegree (hm k).ne_zero, hd]; exact_mod_cast Nat.lt_succ_self k)
      have dX : ∀ {f : ℝ[X]} {n : ℕ}, f.degree < (n : WithBot ℕ) → (X * f).degree < ((n + 1 : ℕ) : WithBot ℕ) := by
        intro f n hf
        rw [degree_lt_iff_coeff_zero]
        intro m hm
        obtain ⟨m, rfl⟩ : ∃ m', m = m' + 1 := ⟨m - 1, by omega⟩
        rw [coeff_X_mul]
        exact coeff_eq_zero_of_degree_lt (lt_of_lt_of_le hf (by exact_mod_cast (by omega : n ≤ m)))
      have z2 : L (P (k + 1) * r') = 0 := ih.2 _ (hr'.trans (by exact_mod_cast Nat.lt_succ_self k))
      have z3 : L (P (k + 1) * (X * r')) = 0 := ih.2 _ (dX hr')
      have z4 : L (P k * r') = 0 := ih.1 _ hr'
      have z5 : L (P (k + 1) * (X * P k)) = L (P (k + 1) * P (k + 1)) := by
        obtain ⟨e, s, he, hs'⟩ := split_monic (hm (k + 1)) (hd (k + 1)) (dX (f := P k) (n := k + 1) (by
          rw [degree_eq_natDegree (hm k).ne_zero, hd]; exact_mod_cast Nat.lt_succ_self k))
        have he1 : e = 1 := by
          have := congrArg (fun f : ℝ[X] => f.coeff (k + 1)) he
          simp only [coeff_X_mul, coeff_add, coeff_smul, smul_eq_mul] at this
          rw [coeff_eq_zero_of_degree_lt hs'] at this
          have h1 : (P k).coeff k = 1 := by have := (hm k).coeff_natDegree; rwa [hd] at this
          have h2 : (P (k + 1)).coeff (k + 1) = 1 := by have := (hm (k + 1)).coeff_natDegree; rwa [hd] at this
          rw [h1, h2] at this; linarith
        rw [he, he1, one_smul, mul_add, map_add, ih.2 s hs', add_zero]
      have e : P (k + 2) * (c • P (k + 1) + (d • P k + r')) =
          c • (X * P (k + 1) * P (k + 1)) - (c * stAlpha L (k + 1)) • (P (k + 1) * P (k + 1)) - (c * stBeta L (k + 1)) • (P (k + 1) * P k) +
          (d • (P (k + 1) * (X * P k)) - (d * stAlpha L (k + 1)) • (P (k + 1) * P k) - (d * stBeta L (k + 1)) • (P k * P k)) +
          (P (k + 1) * (X * r') - stAlpha L (k + 1) • (P (k + 1) * r') - stBeta L (k + 1) • (P k * r')) := by
        rw [hs]
        simp only [smul_eq_C_mul, C_mul]; ring
      rw [show k + 1 + 1 = k + 2 from rfl, e]
      simp only [map_add, map_sub, map_smul, smul_eq_mul, z1, z2, z3, z4, z5]
      linear_combination (-c) * ha (k + 1) - d * hb k
  exact fun k => (key k).1

end stieltjes

/-! ### The algorithm -/

/-- The entries of a row after the inner loop. -/
theorem chebRow_eq (N : ℕ) (alpham betam : ℕ → ℝ) (st : ChebState) (n : ℕ) (hn : 2 ≤ n) (r m : ℕ) :
    chebRow N alpham betam st n r m =
      if r = n ∧ n - 1 ≤ m ∧ m < 2 * N - n + 1 then
        st.sig (n - 1) (m + 1) - (st.alpha (n - 2) - alpham m) * st.sig (n - 1) m - st.beta (n - 2) * st.sig (n - 2) m +
          betam m * st.sig (n - 1) (m - 1)
      else st.sig r m := by
  have key : ∀ (len : ℕ), ∀ r m, ((List.range' (n - 1) len).foldl (fun (sig : ℕ → ℕ → ℝ) (m : ℕ) =>
      Function.update sig n (Function.update (sig n) m
        (sig (n - 1) (m + 1) - (st.alpha (n - 2) - alpham m) * sig (n - 1) m - st.beta (n - 2) * sig (n - 2) m +
          betam m * sig (n - 1) (m - 1)))) st.sig) r m =
      if r = n ∧ n - 1 ≤ m ∧ m < n - 1 + len then
        st.sig (n - 1) (m + 1) - (st.alpha (n - 2) - alpham m) * st.sig (n - 1) m - st.beta (n - 2) * st.sig (n - 2) m +
          betam m * st.sig (n - 1) (m - 1)
      else st.sig r m := by
    intro len
    induction len with
    | zero =>
      intro r m
      rw [if_neg (by omega)]; rfl
    | succ len ih =>
      intro r m
      rw [List.range'_concat, List.foldl_append]
      simp only [List.foldl_cons, List.foldl_nil, one_mul]
      rw [Function.update_apply]
      by_cases hr : r = n
      · rw [if_pos hr, Function.update_apply]
        by_cases hm : m = n - 1 + len
        · rw [if_pos hm, if_pos (by omega), hm]
          have f : ∀ q t, q ≠ n → _ := fun q t (hq : q ≠ n) => (ih q t).trans (if_neg (by omega))
          rw [f _ _ (by omega), f _ _ (by omega), f _ _ (by omega), f _ _ (by omega)]
        · rw [if_neg hm, ih n m, hr]
          by_cases h : n - 1 ≤ m ∧ m < n - 1 + len
          · rw [if_pos (by omega), if_pos (by omega)]
          · rw [if_neg (by omega), if_neg (by omega)]
      · rw [if_neg hr, ih, if_neg (by omega), if_neg (by omega)]
  unfold chebRow
  rw [key]
  by_cases h : r = n ∧ n - 1 ≤ m ∧ m < 2 * N - n + 1
  · rw [if_pos h, if_pos (by omega)]
  · rw [if_neg h, if_neg (by omega)]

section alg
variable {L : ℝ[X] →ₗ[ℝ] ℝ} {alpha beta : ℕ → ℝ} (hL : IsOrtho L alpha beta) (am bm : ℕ → ℝ)

include hL in
theorem ortho_low (k l : ℕ) (h : l < k) : L (recPoly alpha beta k * recPoly am bm l) = 0 := by
  refine hL.2 k _ ?_
  rw [degree_eq_natDegree (recPoly_monic ..).ne_zero, recPoly_degree]
  exact_mod_cast h

include hL in
theorem ortho_diag (k : ℕ) : L (recPoly alpha beta k * recPoly am bm k) = L (recPoly alpha beta k * recPoly alpha beta k) := by
  obtain ⟨c, r, h1, h2⟩ := split_monic (q := recPoly am bm k) (recPoly_monic alpha beta k) (recPoly_degree alpha beta k) (by
    rw [degree_eq_natDegree (recPoly_monic ..).ne_zero, recPoly_degree]; exact_mod_cast Nat.lt_succ_self k)
  have hc : c = 1 := by
    have := congrArg (fun f : ℝ[X] => f.coeff k) h1
    simp only [coeff_add, coeff_smul, smul_eq_mul] at this
    have e : ∀ a b : ℕ → ℝ, (recPoly a b k).coeff k = 1 := fun a b => by
      have := (recPoly_monic a b k).coeff_natDegree; rwa [recPoly_degree] at this
    rw [e, e, coeff_eq_zero_of_degree_lt h2] at this
    linarith
  rw [h1, hc, one_smul, mul_add, map_add, hL.2 k r h2, add_zero]

/-- The recursion between the mixed moments. -/
theorem mixed_rec (k l : ℕ) : L (recPoly alpha beta (k + 2) * recPoly am bm (l + 1)) =
    L (recPoly alpha beta (k + 1) * recPoly am bm (l + 2)) - (alpha (k + 1) - am (l + 1)) * L (recPoly alpha beta (k + 1) * recPoly am bm (l + 1))
      - beta (k + 1) * L (recPoly alpha beta k * recPoly am bm (l + 1)) + bm (l + 1) * L (recPoly alpha beta (k + 1) * recPoly am bm l) := by
  have e : recPoly alpha beta (k + 2) * recPoly am bm (l + 1) =
      recPoly alpha beta (k + 1) * recPoly am bm (l + 2) - (alpha (k + 1) - am (l + 1)) • (recPoly alpha beta (k + 1) * recPoly am bm (l + 1))
      - beta (k + 1) • (recPoly alpha beta k * recPoly am bm (l + 1)) + bm (l + 1) • (recPoly alpha beta (k + 1) * recPoly am bm l) := by
    rw [recPoly_step alpha beta k, recPoly_step am bm l]
    simp only [smul_eq_C_mul, C_sub]; ring
  rw [e]
  simp only [map_add, map_sub, map_smul, smul_eq_mul]

theorem mixed_rec_one (l : ℕ) : L (recPoly alpha beta 1 * recPoly am bm (l + 1)) =
    L (recPoly alpha beta 0 * recPoly am bm (l + 2)) - (alpha 0 - am (l + 1)) * L (recPoly alpha beta 0 * recPoly am bm (l + 1))
      + bm (l + 1) * L (recPoly alpha beta 0 * recPoly am bm l) := by
  have e : recPoly alpha beta 1 * recPoly am bm (l + 1) =
      recPoly alpha beta 0 * recPoly am bm (l + 2) - (alpha 0 - am (l + 1)) • (recPoly alpha beta 0 * recPoly am bm (l + 1))
      + bm (l + 1) • (recPoly alpha beta 0 * recPoly am bm l) := by
    rw [recPoly_one, recPoly_zero, recPoly_step am bm l]
    simp only [smul_eq_C_mul, C_sub]; ring
  rw [e]
  simp only [map_add, map_sub, map_smul, smul_eq_mul]

include hL in
theorem beta_mixed (hne : ∀ k, L (recPoly alpha beta k * recPoly alpha beta k) ≠ 0) (k : ℕ) :
    beta (k + 1) = L (recPoly alpha beta (k + 1) * recPoly am bm (k + 1)) / L (recPoly alpha beta k * recPoly am bm k) := by
  rw [ortho_diag hL am bm (k + 1), ortho_diag hL am bm k, eq_div_iff (hne k), hL.norm, hL.norm, Finset.prod_range_succ _ (k + 1)]
  ring

include hL in
theorem alpha_mixed (hne : ∀ k, L (recPoly alpha beta k * recPoly alpha beta k) ≠ 0) (k : ℕ) :
    alpha (k + 1) = am (k + 1) + L (recPoly alpha beta (k + 1) * recPoly am bm (k + 2)) / L (recPoly alpha beta (k + 1) * recPoly am bm (k + 1)) -
      L (recPoly alpha beta k * recPoly am bm (k + 1)) / L (recPoly alpha beta k * recPoly am bm k) := by
  have h := mixed_rec (L := L) (alpha := alpha) (beta := beta) am bm k k
  rw [ortho_low hL am bm (k + 2) (k + 1) (by omega), ortho_low hL am bm (k + 1) k (by omega)] at h
  have hb := beta_mixed hL am bm hne k
  have n1 := hne (k + 1)
  have n0 := hne k
  rw [← ortho_diag hL am bm] at n1 n0
  rw [eq_div_iff n0] at hb
  rw [← hb] at h n1 ⊢
  have n2 : beta (k + 1) ≠ 0 := fun h0 => n1 (by rw [h0, zero_mul])
  field_simp
  linear_combination h

include hL in
theorem alpha_zero_mixed (h0 : L 1 ≠ 0) : alpha 0 = am 0 + L (recPoly am bm 1) / L (recPoly am bm 0) := by
  have h := hL.2 1 1 (by rw [degree_one]; exact_mod_cast Nat.zero_lt_one)
  rw [recPoly_one, mul_one, map_sub, ← mul_one (C (alpha 0)), ← smul_eq_C_mul, map_smul, smul_eq_mul] at h
  rw [recPoly_one, recPoly_zero, map_sub, ← mul_one (C (am 0)), ← smul_eq_C_mul, map_smul, smul_eq_mul]
  field_simp
  linear_combination -h

end alg

/-- What the loop has computed before the pass `n + 1`. -/
structure ChebInv (L : ℝ[X] →ₗ[ℝ] ℝ) (alpha beta am bm : ℕ → ℝ) (N n : ℕ) (st : ChebState) : Prop where
  a : ∀ k < n, st.alpha k = alpha k
  b : ∀ k < n, st.beta k = beta k
  zero : ∀ m, st.sig 0 m = 0
  row : ∀ r m, r < n → r ≤ m → m + r + 1 ≤ 2 * N → st.sig (r + 1) m = L (recPoly alpha beta r * recPoly am bm m)

theorem chebPass_inv {L : ℝ[X] →ₗ[ℝ] ℝ} {alpha beta : ℕ → ℝ} (hL : IsOrtho L alpha beta) (am bm : ℕ → ℝ)
    (hne : ∀ k, L (recPoly alpha beta k * recPoly alpha beta k) ≠ 0) (N n : ℕ) (hn : 1 ≤ n) (hN : n + 1 ≤ N) (st : ChebState)
    (h : ChebInv L alpha beta am bm N n st) : ∃ st', chebPass N am bm st (n + 1) = some st' ∧ ChebInv L alpha beta am bm N (n + 1) st' := by
  obtain ⟨n, rfl⟩ : ∃ n', n = n' + 1 := ⟨n - 1, by omega⟩
  have hrow : ∀ r m, r < n + 2 → r ≤ m → m + r + 1 ≤ 2 * N →
      chebRow N am bm st (n + 1 + 1) (r + 1) m = L (recPoly alpha beta r * recPoly am bm m) := by
    intro r m hr h1 h2
    rw [chebRow_eq N am bm st (n + 1 + 1) (by omega)]
    by_cases hrn : r = n + 1
    · subst hrn
      rw [if_pos (by omega)]
      obtain ⟨m, rfl⟩ : ∃ m', m = m' + 1 := ⟨m - 1, by omega⟩
      simp only [Nat.add_sub_cancel]
      rw [show n + 1 + 1 - 2 = n by omega, h.row n _ (by omega) (by omega) (by omega), h.row n _ (by omega) (by omega) (by omega),
        h.row n _ (by omega) (by omega) (by omega), h.a n (by omega), h.b n (by omega)]
      rcases n with _ | n
      · rw [h.zero, mul_zero, sub_zero, mixed_rec_one]
      · rw [h.row n _ (by omega) (by omega) (by omega), mixed_rec]
    · rw [if_neg (by omega), h.row r m (by omega) h1 h2]
  have hz : ∀ m, chebRow N am bm st (n + 1 + 1) 0 m = 0 := fun m => by
    rw [chebRow_eq N am bm st (n + 1 + 1) (by omega), if_neg (by omega), h.zero]
  have s1 := hrow (n + 1) (n + 1) (by omega) le_rfl (by omega)
  have s2 := hrow n n (by omega) le_rfl (by omega)
  have s3 := hrow (n + 1) (n + 2) (by omega) (by omega) (by omega)
  have s4 := hrow n (n + 1) (by omega) (by omega) (by omega)
  have n1 := hne (n + 1)
  have n0 := hne n
  rw [← ortho_diag hL am bm] at n1 n0
  have hp : chebPass N am bm st (n + 1 + 1) = some ⟨Function.update st.alpha (n + 1) (am (n + 1) +
        chebRow N am bm st (n + 1 + 1) (n + 1 + 1) (n + 1 + 1) / chebRow N am bm st (n + 1 + 1) (n + 1 + 1) (n + 1) -
        chebRow N am bm st (n + 1 + 1) (n + 1) (n + 1) / chebRow N am bm st (n + 1 + 1) (n + 1) n),
      Function.update st.beta (n + 1) (chebRow N am bm st (n + 1 + 1) (n + 1 + 1) (n + 1) / chebRow N am bm st (n + 1 + 1) (n + 1) n),
      chebRow N am bm st (n + 1 + 1)⟩ := by
    unfold chebPass
    simp only [Nat.add_sub_cancel, show n + 1 + 1 - 2 = n by omega]
    rw [if_neg]
    rw [s1, s2]; push Not; exact ⟨n1, n0⟩
  refine ⟨_, hp, ?_⟩
  · refine ⟨fun k hk => ?_, fun k hk => ?_, hz, fun r m hr h1 h2 => hrow r m hr h1 h2⟩
    · show Function.update st.alpha (n + 1) _ k = _
      by_cases hk' : k = n + 1
      · rw [hk', Function.update_self, s1, s2, s3, s4, ← alpha_mixed hL am bm hne]
      · rw [Function.update_of_ne hk', h.a k (by omega)]
    · show Function.update st.beta (n + 1) _ k = _
      by_cases hk' : k = n + 1
      · rw [hk', Function.update_self, s1, s2, ← beta_mixed hL am bm hne]
      · rw [Function.update_of_ne hk', h.b k (by omega)]

end FIAT
