/-
Polynomials with a bound on the degree in each variable.
-/
import Verif.Props.ProductTrace
import Mathlib.Algebra.MvPolynomial.Funext

namespace FIAT
open MvPolynomial

/-- The functions `φ 0, ..., φ (N-1)` span the polynomials of degree at most `a i` in variable `i`. -/
def SpansDeg {n : ℕ} (N : ℕ) (φ : ℕ → MvPolynomial (Fin n) ℝ) (a : Fin n → ℕ) : Prop :=
  ∀ p : MvPolynomial (Fin n) ℝ, (∀ i, degreeOf i p ≤ a i) ↔ ∃ u : ℕ → ℝ, p = ∑ i ∈ Finset.range N, C (u i) * φ i

theorem degreeOf_rename_cast {m n : ℕ} (f : MvPolynomial (Fin m) ℝ) (i : Fin (m + n)) :
    degreeOf i (rename (Fin.castAdd n) f) ≤ Fin.append (fun j => degreeOf j f) (fun _ : Fin n => 0) i := by
  classical
  rw [degreeOf_le_iff]
  intro s hs
  rw [support_rename_of_injective (Fin.castAdd_injective m n), Finset.mem_image] at hs
  obtain ⟨s', h1, rfl⟩ := hs
  induction i using Fin.addCases with
  | left i =>
    rw [Finsupp.mapDomain_apply (Fin.castAdd_injective m n), Fin.append_left]
    exact degreeOf_le_iff.1 le_rfl s' h1
  | right i =>
    rw [Finsupp.mapDomain_of_notMem_range]
    · exact Nat.zero_le _
    · rintro ⟨j, hj⟩
      have := congrArg Fin.val hj
      simp at this
      omega

theorem degreeOf_rename_nat {m n : ℕ} (f : MvPolynomial (Fin n) ℝ) (i : Fin (m + n)) :
    degreeOf i (rename (Fin.natAdd m) f) ≤ Fin.append (fun _ : Fin m => 0) (fun j => degreeOf j f) i := by
  classical
  rw [degreeOf_le_iff]
  intro s hs
  rw [support_rename_of_injective (Fin.natAdd_injective n m), Finset.mem_image] at hs
  obtain ⟨s', h1, rfl⟩ := hs
  induction i using Fin.addCases with
  | right i =>
    rw [Finsupp.mapDomain_apply (Fin.natAdd_injective n m), Fin.append_right]
    exact degreeOf_le_iff.1 le_rfl s' h1
  | left i =>
    rw [Finsupp.mapDomain_of_notMem_range]
    · exact Nat.zero_le _
    · rintro ⟨j, hj⟩
      have := congrArg Fin.val hj
      simp at this
      omega

theorem prodPoly_degree {m n : ℕ} {f : MvPolynomial (Fin m) ℝ} {g : MvPolynomial (Fin n) ℝ} {a : Fin m → ℕ} {b : Fin n → ℕ}
    (hf : ∀ i, degreeOf i f ≤ a i) (hg : ∀ i, degreeOf i g ≤ b i) (i : Fin (m + n)) :
    degreeOf i (prodPoly f g) ≤ Fin.append a b i := by
  unfold prodPoly
  refine (degreeOf_mul_le _ _ _).trans ((add_le_add (degreeOf_rename_cast f i) (degreeOf_rename_nat g i)).trans ?_)
  induction i using Fin.addCases with
  | left i => simpa using hf i
  | right i => simpa using hg i

theorem sum_degreeOf {n N : ℕ} {φ : ℕ → MvPolynomial (Fin n) ℝ} {a : Fin n → ℕ} (h : ∀ j < N, ∀ i, degreeOf i (φ j) ≤ a i) (u : ℕ → ℝ)
    (i : Fin n) : degreeOf i (∑ j ∈ Finset.range N, C (u j) * φ j) ≤ a i := by
  refine (degreeOf_sum_le i _ _).trans (Finset.sup_le fun j hj => ?_)
  exact (degreeOf_C_mul_le _ _ _).trans (h j (Finset.mem_range.1 hj) i)

theorem SpansDeg.degree {n N : ℕ} {φ : ℕ → MvPolynomial (Fin n) ℝ} {a : Fin n → ℕ} (h : SpansDeg N φ a) {j : ℕ} (hj : j < N)
    (i : Fin n) : degreeOf i (φ j) ≤ a i := by
  refine (h (φ j)).2 ⟨fun i => if i = j then 1 else 0, ?_⟩ i
  rw [Finset.sum_eq_single j]
  · simp
  · intro b _ hb; beta_reduce; rw [if_neg hb]; simp
  · intro h; exact absurd (Finset.mem_range.2 hj) h

theorem monomial_split {m n : ℕ} (s : Fin (m + n) →₀ ℕ) (c : ℝ) : monomial s c =
    prodPoly (monomial (Finsupp.equivFunOnFinite.symm fun i : Fin m => s (Fin.castAdd n i)) c)
      (monomial (Finsupp.equivFunOnFinite.symm fun i : Fin n => s (Fin.natAdd m i)) 1) := by
  apply MvPolynomial.funext
  intro x
  rw [eval_prodPoly, eval_monomial, eval_monomial, eval_monomial, Finsupp.prod_fintype _ _ (fun _ => pow_zero _),
    Finsupp.prod_fintype _ _ (fun _ => pow_zero _), Finsupp.prod_fintype _ _ (fun _ => pow_zero _), Fin.prod_univ_add]
  simp [mul_assoc]

/-- The span of the products. -/
theorem spansDeg_prod {m n M N : ℕ} {f : ℕ → MvPolynomial (Fin m) ℝ} {g : ℕ → MvPolynomial (Fin n) ℝ} {a : Fin m → ℕ} {b : Fin n → ℕ}
    (hf : SpansDeg M f a) (hg : SpansDeg N g b) : SpansDeg (M * N) (prodBasis N f g) (Fin.append a b) := by
  intro p
  constructor
  · intro hp
    have hmem : ∀ s ∈ p.support, ∃ u : ℕ → ℝ, monomial s (coeff s p) = ∑ i ∈ Finset.range (M * N), C (u i) * prodBasis N f g i := by
      intro s hs
      have hs' : ∀ i, s i ≤ Fin.append a b i := fun i => (degreeOf_le_iff.1 (hp i)) s hs
      have hmon : ∀ {l : ℕ} (t : Fin l →₀ ℕ) (c : ℝ) (i : Fin l), degreeOf i (monomial t c) ≤ t i := by
        intro l t c i
        rw [degreeOf_le_iff]
        intro t' ht'
        have := support_monomial_subset ht'
        rw [Finset.mem_singleton] at this
        rw [this]
      obtain ⟨u, hu⟩ := (hf (monomial (Finsupp.equivFunOnFinite.symm fun i : Fin m => s (Fin.castAdd n i)) (coeff s p))).1 fun i =>
        (hmon _ _ i).trans (by have := hs' (Fin.castAdd n i); rwa [Fin.append_left] at this)
      obtain ⟨w, hw⟩ := (hg (monomial (Finsupp.equivFunOnFinite.symm fun i : Fin n => s (Fin.natAdd m i)) 1)).1 fun i =>
        (hmon _ _ i).trans (by have := hs' (Fin.natAdd m i); rwa [Fin.append_right] at this)
      refine ⟨fun r => u (r / N) * w (r % N), ?_⟩
      rw [monomial_split, hu, hw]
      apply MvPolynomial.funext
      intro x
      rw [eval_prodPoly, map_sum, map_sum, map_sum, Finset.sum_mul_sum]
      rw [sum_range_mul' M N (fun r => eval x (C (u (r / N) * w (r % N)) * prodBasis N f g r))]
      refine Finset.sum_congr rfl fun i _ => Finset.sum_congr rfl fun j hj => ?_
      have hj' := Finset.mem_range.1 hj
      have h1 : (i * N + j) / N = i := by
        rw [Nat.mul_comm, Nat.mul_add_div (by omega), Nat.div_eq_of_lt hj', Nat.add_zero]
      have h2 : (i * N + j) % N = j := by
        rw [Nat.add_comm, Nat.add_mul_mod_self_right, Nat.mod_eq_of_lt hj']
      unfold prodBasis
      rw [h1, h2, map_mul, map_mul, map_mul, eval_prodPoly, eval_C, eval_C, eval_C]
      ring
    choose! U hU using hmem
    refine ⟨fun i => ∑ s ∈ p.support, U s i, ?_⟩
    conv_lhs => rw [p.as_sum]
    rw [Finset.sum_congr rfl hU, Finset.sum_comm]
    refine Finset.sum_congr rfl fun i _ => ?_
    rw [map_sum, Finset.sum_mul]
  · rintro ⟨u, rfl⟩ i
    refine sum_degreeOf (fun j hj i => ?_) u i
    have hN : 0 < N := by
      rcases Nat.eq_zero_or_pos N with h | h
      · rw [h] at hj; simp at hj
      · exact h
    exact prodPoly_degree (hf.degree (Nat.div_lt_of_lt_mul (by rw [Nat.mul_comm]; exact hj))) (hg.degree (Nat.mod_lt _ hN)) i

/-- In one variable the degree in the variable is the total degree. -/
theorem degreeOf_one (p : MvPolynomial (Fin 1) ℝ) : degreeOf 0 p = p.totalDegree := by
  rw [degreeOf_eq_sup, totalDegree]
  refine Finset.sup_congr rfl fun s _ => ?_
  rw [Finsupp.sum_fintype _ _ (fun _ => rfl)]
  simp

end FIAT
