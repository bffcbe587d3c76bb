/-
The algebra behind the Nedelec spaces: `P_k^D + S_(k+1)` by degrees, and the Raviart-Thomas space likewise.
-/
import Verif.Lemmas.RTCore
import Mathlib.RingTheory.MvPolynomial.EulerIdentity
import Mathlib.RingTheory.MvPolynomial.Homogeneous

namespace FIAT
open MvPolynomial

section alg
variable {D : ℕ}

/-- Membership in the Nedelec space of the first kind: `p + A x` with `p` in `P_k^D` and `A` an antisymmetric matrix over `P_k`. -/
def IsNed (k : ℕ) (u : Fin D → MvPolynomial (Fin D) ℝ) : Prop :=
  ∃ (p : Fin D → MvPolynomial (Fin D) ℝ) (A : Fin D → Fin D → MvPolynomial (Fin D) ℝ), (∀ j, (p j).totalDegree ≤ k) ∧
    (∀ i j, (A i j).totalDegree ≤ k) ∧ (∀ i j, A i j = - A j i) ∧ ∀ i, u i = p i + ∑ j, A i j * X j

/-- `x · u`. -/
noncomputable def dotX (u : Fin D → MvPolynomial (Fin D) ℝ) : MvPolynomial (Fin D) ℝ := ∑ i, X i * u i

theorem sum_degree {ι : Type} (s : Finset ι) (f : ι → MvPolynomial (Fin D) ℝ) (n : ℕ) (h : ∀ i ∈ s, (f i).totalDegree ≤ n) :
    (∑ i ∈ s, f i).totalDegree ≤ n := totalDegree_finsetSum_le h

theorem mul_degree {p q : MvPolynomial (Fin D) ℝ} {a b n : ℕ} (hp : p.totalDegree ≤ a) (hq : q.totalDegree ≤ b) (h : a + b ≤ n) :
    (p * q).totalDegree ≤ n := (totalDegree_mul _ _).trans (by omega)

theorem Xmul_degree (i : Fin D) {q : MvPolynomial (Fin D) ℝ} {b n : ℕ} (hq : q.totalDegree ≤ b) (h : 1 + b ≤ n) :
    (X i * q).totalDegree ≤ n := mul_degree (totalDegree_X i).le hq h

theorem Cmul_degree (a : ℝ) {q : MvPolynomial (Fin D) ℝ} {n : ℕ} (hq : q.totalDegree ≤ n) :
    (C a * q).totalDegree ≤ n := mul_degree (totalDegree_C a).le hq (by omega)

theorem pdeg_add {p q : MvPolynomial (Fin D) ℝ} {n : ℕ} (hp : p.totalDegree ≤ n) (hq : q.totalDegree ≤ n) :
    (p + q).totalDegree ≤ n := (totalDegree_add _ _).trans (max_le hp hq)

theorem pdeg_sub {p q : MvPolynomial (Fin D) ℝ} {n : ℕ} (hp : p.totalDegree ≤ n) (hq : q.totalDegree ≤ n) :
    (p - q).totalDegree ≤ n := (totalDegree_sub _ _).trans (max_le hp hq)

/-- The part of degree less than `n + 1`. -/
theorem low_degree (p : MvPolynomial (Fin D) ℝ) (n : ℕ) (h : p.totalDegree ≤ n + 1) :
    (p - homogeneousComponent (n + 1) p).totalDegree ≤ n := by
  refine Finset.sup_le fun m hm => ?_
  rw [mem_support_iff, coeff_sub, coeff_homogeneousComponent] at hm
  by_contra hc
  push Not at hc
  apply hm
  by_cases h1 : m.degree = n + 1
  · rw [if_pos h1, sub_self]
  · rw [if_neg h1, sub_zero]
    by_contra h2
    have := le_totalDegree (mem_support_iff.2 h2)
    have h3 : m.degree = m.sum fun _ e => e := rfl
    omega

theorem homogeneous_low {p : MvPolynomial (Fin D) ℝ} {n : ℕ} (h : p.IsHomogeneous (n + 1)) (hd : p.totalDegree ≤ n) : p = 0 := by
  by_contra hp
  have := h.totalDegree hp
  omega

theorem ned_dotX {k : ℕ} {u : Fin D → MvPolynomial (Fin D) ℝ} (h : IsNed k u) :
    (∀ j, (u j).totalDegree ≤ k + 1) ∧ (dotX u).totalDegree ≤ k + 1 := by
  obtain ⟨p, A, hp, hA, ha, hu⟩ := h
  constructor
  · intro j
    rw [hu]
    refine pdeg_add ((hp j).trans (by omega)) (sum_degree _ _ _ fun i _ => ?_)
    exact mul_degree (hA j i) (totalDegree_X i).le le_rfl
  · have hz : ∑ i, ∑ j, X i * (A i j * X j) = (0 : MvPolynomial (Fin D) ℝ) := by
      have e : ∑ i, ∑ j, X i * (A i j * X j) = - ∑ i, ∑ j, X i * (A i j * X j) := by
        conv_lhs => rw [Finset.sum_comm]
        rw [← Finset.sum_neg_distrib]
        refine Finset.sum_congr rfl fun i _ => ?_
        rw [← Finset.sum_neg_distrib]
        refine Finset.sum_congr rfl fun j _ => ?_
        rw [ha j i]; ring
      exact self_eq_neg.1 e
    have e : dotX u = ∑ i, X i * p i := by
      unfold dotX
      simp only [hu, mul_add, Finset.sum_add_distrib, Finset.mul_sum]
      rw [hz, add_zero]
    rw [e]
    exact sum_degree _ _ _ fun i _ => Xmul_degree i (hp i) (by omega)

/-- The Nedelec space by degrees. -/
theorem ned_of_degree {k : ℕ} {u : Fin D → MvPolynomial (Fin D) ℝ} (hu : ∀ j, (u j).totalDegree ≤ k + 1)
    (hx : (dotX u).totalDegree ≤ k + 1) : IsNed k u := by
  set r : Fin D → MvPolynomial (Fin D) ℝ := fun i => homogeneousComponent (k + 1) (u i) with hr
  have hh : ∀ i, (r i).IsHomogeneous (k + 1) := fun i => homogeneousComponent_isHomogeneous _ _
  have hl : ∀ i, (u i - r i).totalDegree ≤ k := fun i => low_degree _ _ (hu i)
  have hz : ∑ i, X i * r i = 0 := by
    apply homogeneous_low (n := k + 1)
    · refine IsHomogeneous.sum _ _ _ fun i _ => ?_
      rw [show k + 1 + 1 = 1 + (k + 1) by omega]
      exact (isHomogeneous_X ℝ i).mul (hh i)
    · have e : ∑ i, X i * r i = dotX u - ∑ i, X i * (u i - r i) := by
        unfold dotX
        rw [← Finset.sum_sub_distrib]
        exact Finset.sum_congr rfl fun i _ => by ring
      rw [e]
      exact pdeg_sub hx (sum_degree _ _ _ fun i _ => Xmul_degree i (hl i) (by omega))
  have hk : ((k : ℝ) + 2) ≠ 0 := by positivity
  refine ⟨fun i => u i - r i, fun i j => C ((k : ℝ) + 2)⁻¹ * (pderiv j (r i) - pderiv i (r j)), hl, fun i j => ?_, fun i j => by ring,
    fun i => ?_⟩
  · refine Cmul_degree _ (pdeg_sub ?_ ?_)
    · exact ((hh i).pderiv (i := j)).totalDegree_le
    · exact ((hh j).pderiv (i := i)).totalDegree_le
  · have h1 := (hh i).sum_X_mul_pderiv
    have h2 : ∑ j, X j * pderiv i (r j) = - r i := by
      have h3 := congrArg (pderiv i) hz
      rw [map_sum, map_zero] at h3
      simp only [Derivation.leibniz, smul_eq_mul, pderiv_X, Finset.sum_add_distrib] at h3
      have h4 : ∑ j, r j * (Pi.single i 1 : Fin D → MvPolynomial (Fin D) ℝ) j = r i := by
        rw [Finset.sum_eq_single i]
        · simp
        · intro b _ hb; rw [Pi.single_eq_of_ne hb, mul_zero]
        · simp
      have h5 : ∑ j, r j * (Pi.single j 1 : Fin D → MvPolynomial (Fin D) ℝ) i = r i := by
        rw [Finset.sum_eq_single i]
        · simp
        · intro b _ hb; rw [Pi.single_eq_of_ne hb.symm, mul_zero]
        · simp
      first
        | rw [h4] at h3; linear_combination h3
        | rw [h5] at h3; linear_combination h3
    have h6 : ∑ j, C ((k : ℝ) + 2)⁻¹ * (pderiv j (r i) - pderiv i (r j)) * X j =
        C ((k : ℝ) + 2)⁻¹ * (∑ j, X j * pderiv j (r i) - ∑ j, X j * pderiv i (r j)) := by
      rw [← Finset.sum_sub_distrib, Finset.mul_sum]
      exact Finset.sum_congr rfl fun j _ => by ring
    rw [h6, h1, h2, sub_neg_eq_add, nsmul_eq_mul]
    have h7 : ((k + 1 : ℕ) : MvPolynomial (Fin D) ℝ) * r i + r i = C ((k : ℝ) + 2) * r i := by
      have : C ((k : ℝ) + 2) = ((k : MvPolynomial (Fin D) ℝ) + 2) := by rw [map_add, map_natCast, map_ofNat]
      rw [this]; push_cast; ring
    rw [h7, ← mul_assoc, ← C_mul, inv_mul_cancel₀ hk, C_1]
    ring

theorem ned_iff {k : ℕ} {u : Fin D → MvPolynomial (Fin D) ℝ} :
    IsNed k u ↔ (∀ j, (u j).totalDegree ≤ k + 1) ∧ (dotX u).totalDegree ≤ k + 1 :=
  ⟨ned_dotX, fun h => ned_of_degree h.1 h.2⟩

/-- The Raviart-Thomas space by degrees. -/
theorem rt_of_degree (hD : 1 ≤ D) {k : ℕ} {p : Fin D → MvPolynomial (Fin D) ℝ} (hp : ∀ j, (p j).totalDegree ≤ k + 1)
    (hx : ∀ i j, (X i * p j - X j * p i).totalDegree ≤ k + 1) : IsRT k p := by
  set r : Fin D → MvPolynomial (Fin D) ℝ := fun i => homogeneousComponent (k + 1) (p i) with hr
  have hh : ∀ i, (r i).IsHomogeneous (k + 1) := fun i => homogeneousComponent_isHomogeneous _ _
  have hl : ∀ i, (p i - r i).totalDegree ≤ k := fun i => low_degree _ _ (hp i)
  have hz : ∀ i j, X i * r j = X j * r i := by
    intro i j
    rw [← sub_eq_zero]
    apply homogeneous_low (n := k + 1)
    · rw [show k + 1 + 1 = 1 + (k + 1) by omega]
      exact ((isHomogeneous_X ℝ i).mul (hh j)).sub ((isHomogeneous_X ℝ j).mul (hh i))
    · have e : X i * r j - X j * r i = (X i * p j - X j * p i) - (X i * (p j - r j) - X j * (p i - r i)) := by ring
      rw [e]
      exact pdeg_sub (hx i j) (pdeg_sub (Xmul_degree i (hl j) (by omega)) (Xmul_degree j (hl i) (by omega)))
  have hk : ((D : ℝ) + k) ≠ 0 := by
    have : 0 < (D : ℝ) := by exact_mod_cast hD
    positivity
  refine ⟨fun i => p i - r i, C ((D : ℝ) + k)⁻¹ * ∑ i, pderiv i (r i), hl, Cmul_degree _ (sum_degree _ _ _ fun i _ =>
    ((hh i).pderiv (i := i)).totalDegree_le), fun j => ?_⟩
  have h1 := (hh j).sum_X_mul_pderiv
  have h2 : ∑ i, pderiv i (X i * r j) = ∑ i, pderiv i (X j * r i) := Finset.sum_congr rfl fun i _ => by rw [hz i j]
  simp only [Derivation.leibniz, smul_eq_mul, pderiv_X, Finset.sum_add_distrib, Pi.single_eq_same, mul_one, Finset.sum_const,
    Finset.card_univ, Fintype.card_fin, nsmul_eq_mul] at h2
  have h4 : ∑ i, r i * (Pi.single i 1 : Fin D → MvPolynomial (Fin D) ℝ) j = r j := by
    rw [Finset.sum_eq_single j]
    · simp
    · intro b _ hb; rw [Pi.single_eq_of_ne hb.symm, mul_zero]
    · simp
  have h5 : ∑ i, r i * (Pi.single j 1 : Fin D → MvPolynomial (Fin D) ℝ) i = r j := by
    rw [Finset.sum_eq_single j]
    · simp
    · intro b _ hb; rw [Pi.single_eq_of_ne hb, mul_zero]
    · simp
  have h6 : C ((D : ℝ) + k) * r j = X j * ∑ i, pderiv i (r i) := by
    have : C ((D : ℝ) + k) = ((D : MvPolynomial (Fin D) ℝ) + (k : MvPolynomial (Fin D) ℝ)) := by rw [map_add, map_natCast, map_natCast]
    rw [this, Finset.mul_sum]
    rw [h1, nsmul_eq_mul] at h2
    push_cast at h2
    first
      | rw [h4] at h2; linear_combination h2
      | rw [h5] at h2; linear_combination h2
  have h7 : X j * (C ((D : ℝ) + k)⁻¹ * ∑ i, pderiv i (r i)) = r j := by
    rw [mul_left_comm, ← h6, ← mul_assoc, ← C_mul, inv_mul_cancel₀ hk, C_1, one_mul]
  rw [h7]; ring

/-- In two dimensions the Nedelec space is the rotated Raviart-Thomas space. -/
noncomputable def rot2 (u : Fin 2 → MvPolynomial (Fin 2) ℝ) : Fin 2 → MvPolynomial (Fin 2) ℝ := ![- u 1, u 0]

theorem rot2_ned {k : ℕ} {u : Fin 2 → MvPolynomial (Fin 2) ℝ} : IsNed k u ↔ IsRT k (rot2 u) := by
  constructor
  · rintro ⟨p, A, hp, hA, ha, hu⟩
    have h00 : A 0 0 = 0 := self_eq_neg.1 (ha 0 0)
    have h11 : A 1 1 = 0 := self_eq_neg.1 (ha 1 1)
    refine ⟨![- p 1, p 0], A 0 1, fun j => ?_, hA 0 1, fun j => ?_⟩
    · fin_cases j
      · simpa using hp 1
      · simpa using hp 0
    · have := ha 1 0
      fin_cases j
      · simp [rot2, hu, Fin.sum_univ_two, h00, h11, this]; ring
      · simp [rot2, hu, Fin.sum_univ_two, h00, h11]; ring
  · rintro ⟨p, q, hp, hq, h⟩
    have h0 := h 0
    have h1 := h 1
    simp [rot2] at h0 h1
    refine ⟨![p 1, - p 0], ![![0, q], ![-q, 0]], fun j => ?_, fun i j => ?_, fun i j => ?_, fun i => ?_⟩
    · fin_cases j
      · simpa using hp 1
      · simpa using hp 0
    · fin_cases i <;> fin_cases j <;> simp [hq]
    · fin_cases i <;> fin_cases j <;> simp
    · fin_cases i
      · simp [Fin.sum_univ_two, h1]; ring
      · simp [Fin.sum_univ_two]; linear_combination -h0

end alg
end FIAT
