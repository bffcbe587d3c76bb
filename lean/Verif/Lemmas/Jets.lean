/-
What the point and derivative functionals do on scalar polynomials, and uniqueness of polynomials on edges.
-/
import Verif.Lemmas.AnyElement
import Verif.Lemmas.LinPrime
import Verif.Lemmas.EntityLoop
import Verif.Lemmas.FacetTrace
import Verif.Lemmas.ListSum

namespace FIAT
open MvPolynomial
section
variable {D : ℕ}

theorem iterDeriv_unit (i : Fin D) (p : MvPolynomial (Fin D) ℝ) : iterDeriv (unitAlpha D i) p = pderiv i p := by
  have e : unitAlpha D i = (List.replicate D 0).set i ((List.replicate D 0).getD i 0 + 1) := by
    apply List.ext_getElem
    · simp [unitAlpha]
    · intro j h1 h2
      have hj : j < D := by simpa [unitAlpha] using h1
      simp only [unitAlpha, List.getElem_map, List.getElem_range, List.getElem_set, List.getElem_replicate]
      rw [show (List.replicate D 0).getD (i : ℕ) 0 = 0 by simp [List.getD]]
      by_cases h : (i : ℕ) = j
      · rw [if_pos h.symm, if_pos h]
      · rw [if_neg (fun h' => h h'.symm), if_neg h]
  rw [e, iterDeriv_succ _ _ (by simp), iterDeriv_zero]

theorem point_eval_scalar (x : Fin D → ℝ) (p : MvPolynomial (Fin D) ℝ) :
    (pointEvaluation x).onField (scalarField p) = eval x p := by
  rw [pointEval_onField, scalarField_nil]

theorem point_deriv_scalar (x : Fin D → ℝ) (α : List ℕ) (p : MvPolynomial (Fin D) ℝ) :
    (pointDerivative x α).onField (scalarField p) = eval x (iterDeriv α p) := by
  unfold Functional.onField
  rw [point_derivative_apply, scalarField_nil]

private theorem dirDeriv_scalar (n : Fin D → ℝ) (p : MvPolynomial (Fin D) ℝ) (x : Fin D → ℝ) :
    dirDeriv (fun α c x => eval x (iterDeriv α (scalarField p c))) D (vecNat n) x = eval x (dirD n p) := by
  unfold dirDeriv
  rw [Finset.sum_range, eval_dirD]
  refine Finset.sum_congr rfl fun i _ => ?_
  beta_reduce
  rw [scalarField_nil, iterDeriv_unit, vecNat, dif_pos i.2]

theorem point_normal_scalar (n x : Fin D → ℝ) (p : MvPolynomial (Fin D) ℝ) :
    (pointNormalDerivative D (vecNat n) x).onField (scalarField p) = eval x (dirD n p) := by
  unfold Functional.onField
  rw [point_normal_derivative_apply, dirDeriv_scalar]

theorem normal_moment_scalar (n : Fin D → ℝ) (Q : List ((Fin D → ℝ) × ℝ × ℝ)) (hQ : (Q.map fun q => q.1).Nodup)
    (p : MvPolynomial (Fin D) ℝ) :
    (integralMomentOfNormalDerivative D (vecNat n) Q).onField (scalarField p) = quadSum Q fun x => eval x (dirD n p) := by
  unfold Functional.onField
  rw [integral_moment_normal_derivative_apply _ _ _ _ _ hQ]
  congr 1
  funext x
  exact dirDeriv_scalar n p x

theorem moment_scalar (Q : List ((Fin D → ℝ) × ℝ × ℝ)) (hQ : (Q.map fun q => q.1).Nodup) (p : MvPolynomial (Fin D) ℝ) :
    (integralMoment Q []).onField (scalarField p) = quadSum Q fun x => eval x p := by
  unfold Functional.onField
  rw [integral_moment_apply _ _ _ hQ]
  simp only [scalarField_nil]

theorem wf_eval (x : Fin D → ℝ) : (pointEvaluation x : Functional ℝ (Fin D → ℝ)).WF D :=
  ⟨by simp [pointEvaluation, Dict.WF, Dict.keys], by simp [pointEvaluation, Dict.WF, Dict.keys], by simp [pointEvaluation]⟩

theorem wf_deriv (x : Fin D → ℝ) (α : List ℕ) (h : α.length = D) : (pointDerivative x α : Functional ℝ (Fin D → ℝ)).WF D :=
  ⟨by simp [pointDerivative, Dict.WF, Dict.keys], by simp [pointDerivative, Dict.WF, Dict.keys], by
    intro xw hx wac hw
    simp only [pointDerivative, List.mem_singleton] at hx
    subst hx
    rw [List.mem_singleton] at hw
    subst hw
    exact h⟩

theorem wf_normal (n x : Fin D → ℝ) : (pointNormalDerivative D (vecNat n) x).WF D :=
  ⟨by simp [pointNormalDerivative, Dict.WF, Dict.keys], by simp [pointNormalDerivative, Dict.WF, Dict.keys],
    by
      intro xw hx wac hw
      simp only [pointNormalDerivative, List.mem_singleton] at hx
      subst hx
      obtain ⟨i, -, rfl⟩ := List.mem_map.1 hw
      simp [unitAlpha]⟩

theorem wf_moment (Q : List ((Fin D → ℝ) × ℝ × ℝ)) (hQ : (Q.map fun q => q.1).Nodup) (c : List ℕ) :
    (integralMoment Q c).WF D :=
  ⟨fill_wf _ _ _ hQ, by simp [integralMoment, Dict.WF, Dict.keys], by simp [integralMoment]⟩

theorem wf_normal_moment (n : Fin D → ℝ) (Q : List ((Fin D → ℝ) × ℝ × ℝ)) (hQ : (Q.map fun q => q.1).Nodup) :
    (integralMomentOfNormalDerivative D (vecNat n) Q).WF D := by
  refine ⟨by simp [integralMomentOfNormalDerivative, Dict.WF, Dict.keys], fill_wf _ _ _ hQ, ?_⟩
  unfold integralMomentOfNormalDerivative
  simp only
  rw [fillDict_eq _ _ _ hQ]
  intro xw hx wac hw
  obtain ⟨q, -, rfl⟩ := List.mem_map.1 hx
  obtain ⟨i, -, rfl⟩ := List.mem_map.1 hw
  simp [unitAlpha]

theorem order_deriv (x : Fin D → ℝ) (α : List ℕ) : (pointDerivative x α : Functional ℝ (Fin D → ℝ)).maxDerivOrder = α.sum := by
  simp [pointDerivative, Functional.maxDerivOrder]

theorem unitAlpha_sum (i : Fin D) : (unitAlpha D i).sum = 1 := by
  unfold unitAlpha
  rw [list_sum_range, Finset.sum_eq_single (i : ℕ)]
  · simp
  · intro b _ hb; rw [if_neg hb]
  · intro h; exact absurd (Finset.mem_range.2 i.2) h

theorem unitAlpha_length (i : ℕ) : (unitAlpha D i).length = D := by simp [unitAlpha]

/-! ### Edges -/

theorem iterate_derivative_lineRestrict (a u : Fin D → ℝ) (p : MvPolynomial (Fin D) ℝ) (j : ℕ) :
    Polynomial.derivative^[j] (lineRestrict a u p) = lineRestrict a u ((dirD u)^[j] p) := by
  induction j with
  | zero => rfl
  | succ j ih => rw [Function.iterate_succ_apply', ih, derivative_lineRestrict, Function.iterate_succ_apply']

/-- Hermite uniqueness on a line: zeros of order `m` at both ends of the segment and simple ones at the points `i / n`. -/
theorem edge_zero (a u : Fin D → ℝ) (p : MvPolynomial (Fin D) ℝ) (k m n : ℕ) (hn : 1 ≤ n) (hk : p.totalDegree ≤ k)
    (h0 : ∀ j < m, eval a ((dirD u)^[j] p) = 0) (h1 : ∀ j < m, eval (a + u) ((dirD u)^[j] p) = 0)
    (hi : ∀ i : ℕ, 1 ≤ i → i < n → eval (a + ((i : ℝ) / n) • u) p = 0) (hlt : k < 2 * m + (n - 1)) (t : ℝ) :
    eval (a + t • u) p = 0 := by
  have hn0 : (n : ℝ) ≠ 0 := by positivity
  have hinj : Function.Injective fun i : ℕ => (i : ℝ) / n := by
    intro i j h
    simp only [div_left_inj' hn0] at h
    exact_mod_cast h
  have hq : lineRestrict a u p = 0 := by
    refine hermite_zero ((Finset.range (n + 1)).image fun i : ℕ => (i : ℝ) / n) (fun x => if x = 0 ∨ x = 1 then m else 1) _ ?_ ?_
    · intro x hx j hj
      rw [iterate_derivative_lineRestrict, eval_lineRestrict]
      obtain ⟨i, hi', rfl⟩ := Finset.mem_image.1 hx
      split_ifs at hj with hc
      · rcases hc with hc | hc
        · rw [hc, zero_smul, add_zero]; exact h0 j hj
        · rw [hc, one_smul]; exact h1 j hj
      · push Not at hc
        have hj0 : j = 0 := by omega
        subst hj0
        apply hi
        · by_contra h
          apply hc.1
          have : i = 0 := by omega
          rw [this]; simp
        · by_contra h
          apply hc.2
          have : i = n := by have := Finset.mem_range.1 hi'; omega
          rw [this]; exact div_self hn0
    · rw [Finset.sum_image fun i _ j _ h => hinj h]
      refine lt_of_le_of_lt (natDegree_lineRestrict a u hk) ?_
      obtain ⟨n', rfl⟩ : ∃ n', n = n' + 1 := ⟨n - 1, by omega⟩
      rw [Finset.sum_range_succ, Finset.sum_range_succ']
      have e1 : ∀ i ∈ Finset.range n', (if (((i + 1 : ℕ) : ℝ) / ((n' + 1 : ℕ) : ℝ) = 0 ∨ ((i + 1 : ℕ) : ℝ) / ((n' + 1 : ℕ) : ℝ) = 1) then m else 1) = 1 := by
        intro i hi
        rw [if_neg]
        push Not
        constructor
        · rw [div_ne_zero_iff]; exact ⟨by exact_mod_cast Nat.succ_ne_zero i, hn0⟩
        · rw [Ne, div_eq_one_iff_eq hn0]
          have := Finset.mem_range.1 hi
          norm_cast
          omega
      rw [Finset.sum_congr rfl e1]
      rw [if_pos (Or.inl (by simp)), if_pos (Or.inr (div_self hn0))]
      simp
      simp only [Nat.add_sub_cancel] at hlt
      omega
  rw [← eval_lineRestrict, hq]; simp

/-- The points of `make_points(1, e, k)`. -/
theorem edge_points {s : SimplexCell (Fin D → ℝ)} (hs : ProperSimplex ℝ s) {e : ℕ} {t : List ℕ} (h : HasEntity s.topo 1 e t)
    (k : ℕ) (hk : 1 ≤ k) :
    ∃ a c, t = [a, c] ∧ a ≠ c ∧ a < D + 1 ∧ c < D + 1 ∧ ∃ pts, makePoints ℝ s 1 e k = some pts ∧
      (∀ i : ℕ, 1 ≤ i → i < k → s.v a + ((i : ℝ) / k) • (s.v c - s.v a) ∈ pts) ∧
      ∀ x ∈ pts, ∃ i : ℕ, 1 ≤ i ∧ i < k ∧ x = s.v a + ((i : ℝ) / k) • (s.v c - s.v a) := by
  obtain ⟨h1, h2, h3⟩ := hs.2.1.entity _ _ _ h
  rw [hs.1] at h3
  obtain ⟨a, c, rfl⟩ : ∃ a c, t = [a, c] := by
    match t, h2 with
    | [a, c], _ => exact ⟨a, c, rfl⟩
  have hac : a ≠ c := by simpa using h1
  have ha := h3 a (by simp)
  have hc := h3 c (by simp)
  obtain ⟨pts, p1, p2⟩ := make_points_mem (K := ℝ) s hs.2.1 k hk h
  have hk0 : (k : ℝ) ≠ 0 := by positivity
  rw [hs.1] at p2
  have hpair : ∀ (β : ℕ → ℕ), (∀ i, β i ≠ 0 ↔ i ∈ [a, c]) → (∑ i ∈ Finset.range (D + 1), β i = β a + β c) ∧
      baryPt ℝ s.v (D + 1) k β = ((β a : ℝ) / k) • s.v a + ((β c : ℝ) / k) • s.v c := by
    intro β hβ
    have hz : ∀ i, i ∉ ({a, c} : Finset ℕ) → β i = 0 := by
      intro i hi
      by_contra hcon
      have := (hβ i).1 hcon
      simp at this hi
      tauto
    have hsub : ({a, c} : Finset ℕ) ⊆ Finset.range (D + 1) := by
      intro i hi
      simp at hi
      rw [Finset.mem_range]
      rcases hi with rfl | rfl <;> assumption
    constructor
    · rw [← Finset.sum_subset hsub fun i _ hi => hz i hi, Finset.sum_pair hac]
    · unfold baryPt
      rw [← Finset.sum_subset hsub fun i _ hi => by rw [hz i hi]; simp, Finset.sum_pair hac]
  refine ⟨a, c, rfl, hac, ha, hc, pts, p1, fun i hi1 hi2 => ?_, fun x hx => ?_⟩
  · rw [p2]
    have hβ : ∀ j, (if j = a then k - i else if j = c then i else 0) ≠ 0 ↔ j ∈ [a, c] := by
      intro j
      by_cases hj : j = a
      · simp [hj]; omega
      · by_cases hj' : j = c
        · simp [hj', Ne.symm hac]; omega
        · simp [hj, hj']
    obtain ⟨q1, q2⟩ := hpair _ hβ
    refine ⟨_, hβ, ?_, ?_⟩
    · rw [q1]
      simp [Ne.symm hac]; omega
    · rw [q2]
      simp only [if_true, if_neg (Ne.symm hac)]
      rw [Nat.cast_sub hi2.le, smul_sub, sub_div, sub_smul, div_self hk0, one_smul]
      abel
  · obtain ⟨β, b1, b2, b3⟩ := (p2 x).1 hx
    obtain ⟨q1, q2⟩ := hpair β b1
    have ba := (b1 a).2 (by simp)
    have bc := (b1 c).2 (by simp)
    refine ⟨β c, by omega, by omega, ?_⟩
    rw [b3, q2]
    have : (β a : ℝ) = k - β c := by
      rw [eq_sub_iff_add_eq]; norm_cast; omega
    rw [this, smul_sub, sub_div, sub_smul, div_self hk0, one_smul]
    abel

theorem onEntity_pair (s : SimplexCell (Fin D → ℝ)) {a c : ℕ} (hac : a ≠ c) (x : Fin D → ℝ) :
    OnEntity s [a, c] x ↔ ∃ t : ℝ, x = s.v a + t • (s.v c - s.v a) := by
  unfold OnEntity
  constructor
  · rintro ⟨w, h1, rfl⟩
    simp only [List.map_cons, List.map_nil, List.sum_cons, List.sum_nil, add_zero] at h1 ⊢
    refine ⟨w c, ?_⟩
    have : w a = 1 - w c := by linarith
    rw [this, smul_sub, sub_smul, one_smul]; abel
  · rintro ⟨t, rfl⟩
    refine ⟨fun j => if j = a then 1 - t else t, ?_, ?_⟩
    · simp [Ne.symm hac]
    · simp [Ne.symm hac, smul_sub, sub_smul]; abel

end
end FIAT
