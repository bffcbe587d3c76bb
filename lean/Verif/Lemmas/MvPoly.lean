/-
Facts about multivariate polynomials used by several properties: dimension of the space of polynomials
of total degree at most `n`, and unisolvence of principal lattices.
-/
import Mathlib.RingTheory.MvPolynomial.Basic
import Mathlib.Algebra.MvPolynomial.Equiv
import Mathlib.Algebra.MvPolynomial.NoZeroDivisors
import Mathlib.Algebra.Order.Antidiag.FinsuppEquiv
import Mathlib.Algebra.Polynomial.RingDivision
import Mathlib.LinearAlgebra.Dimension.StrongRankCondition
import Mathlib.LinearAlgebra.Dimension.Free

namespace FIAT
open MvPolynomial

section
variable {K : Type*} [Field K] {σ τ : Type*}

/-- Substituting polynomials of degree at most one does not increase the total degree. -/
theorem totalDegree_aeval_le (f : σ → MvPolynomial τ K) (hf : ∀ i, (f i).totalDegree ≤ 1)
    (p : MvPolynomial σ K) : (aeval f p).totalDegree ≤ p.totalDegree := by
  rw [aeval_def, eval₂_eq]
  refine (totalDegree_finsetSum _ _).trans (Finset.sup_le fun m hm => ?_)
  refine (totalDegree_mul _ _).trans ?_
  have h1 : (algebraMap K (MvPolynomial τ K) (coeff m p)).totalDegree = 0 := totalDegree_C _
  rw [h1, zero_add]
  refine (totalDegree_finsetProd _ _).trans ?_
  refine le_trans (Finset.sum_le_sum fun i _ => ?_) (le_totalDegree hm)
  exact (totalDegree_pow _ _).trans (by simpa using Nat.mul_le_mul_left (m i) (hf i))

/-- Substituting the constant `t` for variable `0`. -/
noncomputable def subst0 {d : ℕ} (t : K) (p : MvPolynomial (Fin (d + 1)) K) : MvPolynomial (Fin d) K :=
  aeval (Fin.cons (C t) X : Fin (d + 1) → MvPolynomial (Fin d) K) p

theorem totalDegree_subst0 {d : ℕ} (t : K) (p : MvPolynomial (Fin (d + 1)) K) :
    (subst0 t p).totalDegree ≤ p.totalDegree := by
  refine totalDegree_aeval_le _ (fun i => ?_) p
  refine Fin.cases ?_ (fun j => ?_) i
  · simp
  · simp

theorem eval_subst0 {d : ℕ} (t : K) (p : MvPolynomial (Fin (d + 1)) K) (x : Fin d → K) :
    eval x (subst0 t p) = eval (Fin.cons t x : Fin (d + 1) → K) p := by
  unfold subst0
  have : (eval x).comp (aeval (Fin.cons (C t) X : Fin (d + 1) → MvPolynomial (Fin d) K)).toRingHom
      = eval (Fin.cons t x : Fin (d + 1) → K) := by
    apply MvPolynomial.ringHom_ext
    · intro r; simp
    · intro i
      refine Fin.cases ?_ (fun j => ?_) i <;> simp
  exact congrArg (fun f => f p) this

theorem eval_finSuccEquiv {d : ℕ} (t : K) (p : MvPolynomial (Fin (d + 1)) K) :
    Polynomial.eval (C t) (finSuccEquiv K d p) = subst0 t p := by
  have : (Polynomial.evalRingHom (C t : MvPolynomial (Fin d) K)).comp (finSuccEquiv K d).toRingHom
      = (aeval (Fin.cons (C t) X : Fin (d + 1) → MvPolynomial (Fin d) K)).toRingHom := by
    apply MvPolynomial.ringHom_ext
    · intro r; simp [finSuccEquiv_apply]
    · intro i
      refine Fin.cases ?_ (fun j => ?_) i
      · simp [finSuccEquiv_X_zero]
      · simp [finSuccEquiv_X_succ]
  exact congrArg (fun f => f p) this

/-- If `p` vanishes on the hyperplane `x₀ = t` then `x₀ - t` divides `p`. -/
theorem X_sub_C_dvd {d : ℕ} (t : K) (p : MvPolynomial (Fin (d + 1)) K) (h : subst0 t p = 0) :
    ∃ q, p = (X 0 - C t) * q := by
  have h1 : Polynomial.IsRoot (finSuccEquiv K d p) (C t) := by
    rw [Polynomial.IsRoot, eval_finSuccEquiv, h]
  obtain ⟨q, hq⟩ := Polynomial.dvd_iff_isRoot.2 h1
  refine ⟨(finSuccEquiv K d).symm q, ?_⟩
  apply (finSuccEquiv K d).injective
  rw [map_mul, hq, AlgEquiv.apply_symm_apply, map_sub, finSuccEquiv_X_zero]
  congr 2
  simp [finSuccEquiv_apply]

theorem totalDegree_X_sub_C {d : ℕ} (t : K) (i : Fin d) :
    (X i - C t : MvPolynomial (Fin d) K).totalDegree = 1 := by
  rw [sub_eq_add_neg, ← map_neg, totalDegree_add_eq_left_of_totalDegree_lt]
  · simp
  · simp

/-- A polynomial of total degree at most `k` that vanishes at all points
`(t₀(α₀), ..., t_{d-1}(α_{d-1}))` with `|α| ≤ k` is zero (the `t i` are injective). -/
theorem lattice_unisolvent (d k : ℕ) (t : Fin d → ℕ → K) (ht : ∀ i, Function.Injective (t i))
    (p : MvPolynomial (Fin d) K) (hp : p.totalDegree ≤ k)
    (h : ∀ α : Fin d → ℕ, ∑ i, α i ≤ k → eval (fun i => t i (α i)) p = 0) : p = 0 := by
  induction d generalizing k with
  | zero =>
    have h0 : p.totalDegree = 0 := by
      rw [totalDegree]
      apply le_antisymm _ (Nat.zero_le _)
      refine Finset.sup_le fun m _ => ?_
      have : m = 0 := Subsingleton.elim _ _
      simp [this]
    obtain hC := totalDegree_eq_zero_iff_eq_C.1 h0
    have := h (fun i => i.elim0) (by simp)
    rw [hC, eval_C] at this
    rw [hC, this, C_0]
  | succ d ih =>
    induction k generalizing t p with
    | zero =>
      have hC := totalDegree_eq_zero_iff_eq_C.1 (Nat.le_zero.1 hp)
      have := h (fun _ => 0) (by simp)
      rw [hC, eval_C] at this
      rw [hC, this, C_0]
    | succ k ihk =>
      have hr : subst0 (t 0 0) p = 0 := by
        refine ih (k + 1) (fun i => t i.succ) (fun i => ht i.succ) _
          ((totalDegree_subst0 _ _).trans hp) fun α hα => ?_
        rw [eval_subst0]
        have := h (Fin.cons 0 α) (by rw [Fin.sum_univ_succ]; simpa using hα)
        rw [← this]
        congr 2
        funext i
        refine Fin.cases ?_ (fun j => ?_) i <;> simp
      obtain ⟨q, rfl⟩ := X_sub_C_dvd _ _ hr
      by_cases hq : q = 0
      · rw [hq, mul_zero]
      have hdeg : q.totalDegree ≤ k := by
        rw [totalDegree_mul_of_isDomain _ hq, totalDegree_X_sub_C] at hp
        · omega
        · intro h0
          have := totalDegree_X_sub_C (t 0 0) (0 : Fin (d + 1))
          rw [h0] at this; simp at this
      exfalso
      apply hq
      refine ihk (fun i => Fin.cases (motive := fun _ => ℕ → K) (fun n => t 0 (n + 1))
        (fun j => t j.succ) i) ?_ q hdeg ?_
      · intro i
        refine Fin.cases ?_ (fun j => ?_) i
        · intro a b hab
          exact Nat.succ.inj (ht 0 hab)
        · exact ht j.succ
      · intro α hα
        have h1 := h (fun i => Fin.cases (motive := fun _ => ℕ) (α 0 + 1) (fun j => α j.succ) i) (by
          rw [Fin.sum_univ_succ] at hα ⊢
          simp only [Fin.cases_zero, Fin.cases_succ]
          omega)
        rw [map_mul, mul_eq_zero] at h1
        rcases h1 with h1 | h1
        · simp only [map_sub, eval_X, eval_C, Fin.cases_zero] at h1
          exact absurd (ht 0 (sub_eq_zero.1 h1)) (by omega)
        · rw [← h1]
          congr 2
          funext i
          refine Fin.cases ?_ (fun j => ?_) i <;> simp

/-- The dimension of the space of polynomials of total degree at most `n` in `d` variables. -/
theorem finrank_restrictTotalDegree (d n : ℕ) :
    Module.finrank K (restrictTotalDegree (Fin d) K n) = (n + d).choose d := by
  have hset : ({m : Fin d →₀ ℕ | (m.sum fun _ e => e) ≤ n}) =
      ↑((Finset.range (n + 1)).biUnion fun k => (Finset.univ : Finset (Fin d)).finsuppAntidiag k) := by
    ext m
    have hs : (m.sum fun _ e => e) = Finset.univ.sum ⇑m := by
      rw [Finsupp.sum_fintype]; simp
    simp only [Set.mem_ofPred_eq, hs, Finset.coe_biUnion, Set.mem_iUnion, Finset.mem_coe,
      Finset.mem_range, Finset.mem_finsuppAntidiag]
    constructor
    · intro h; exact ⟨_, by omega, rfl, by simp⟩
    · rintro ⟨k, hk, h, _⟩; omega
  unfold restrictTotalDegree
  rw [hset, Module.finrank_eq_nat_card_basis (basisRestrictSupport K _)]
  rw [Nat.card_eq_card_toFinset]
  simp only [Finset.toFinset_coe]
  rw [Finset.card_biUnion]
  · simp only [Finset.card_finsuppAntidiag_nat_eq_multichoose, Finset.card_univ, Fintype.card_fin]
    clear hset
    induction n with
    | zero => simp
    | succ n ih =>
      rw [Finset.sum_range_succ, ih]
      rw [Nat.multichoose_eq]
      rcases d with _ | d
      · simp
      · have e1 : n + (d + 1) = n + d + 1 := rfl
        have e2 : d + 1 + (n + 1) - 1 = n + d + 1 := by omega
        have e3 : n + 1 + (d + 1) = n + d + 1 + 1 := by omega
        rw [e1, e2, e3, Nat.choose_succ_succ (n + d + 1) d, add_comm]
        congr 1
        rw [← Nat.choose_symm_of_eq_add]; omega
  · intro a _ b _ hab
    rw [Function.onFun, Finset.disjoint_left]
    intro m h1 h2
    rw [Finset.mem_finsuppAntidiag] at h1 h2
    exact hab (h1.1.symm.trans h2.1)

end
end FIAT
