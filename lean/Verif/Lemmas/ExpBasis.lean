/-
The members of the expansion sets on the default simplices are orthonormal and graded by degree.
-/
import Verif.Lemmas.ExpLoops
import Verif.Lemmas.SimplexMap
import Verif.Lemmas.MvPoly
import Verif.Props.Affine
import Verif.Props.PolyDim

namespace FIAT
open MvPolynomial MeasureTheory

/-- A family of polynomials on the default simplex, enumerated by degree, orthonormal. -/
structure RefBasis (d : ℕ) where
  ι : Type
  dec : DecidableEq ι
  ix : ι → ℕ
  deg : ι → ℕ
  ψ : ι → MvPolynomial (Fin d) ℝ
  inj : Function.Injective ix
  surj : Function.Surjective ix
  lt : ∀ i k, ix i < (k + d).choose d ↔ deg i ≤ k
  degree : ∀ i, (ψ i).totalDegree ≤ deg i
  ortho : ∀ i j, ∫ x in refSimplex d, eval x (ψ i) * eval x (ψ j) = if i = j then 1 else 0

section raw

theorem hJac_eval (a : ℝ) (X T : MvPolynomial (Fin d) ℝ) (n : ℕ) (x : Fin d → ℝ) :
    eval x (hJac a X T n) = hJac a (eval x X) (eval x T) n := by
  have h : ∀ p, eval x p = aeval (R := ℝ) x p := fun p => by rw [← coe_aeval_eq_eval]; rfl
  rw [h, h, h, hJac_map]

theorem hJac_real (a : ℝ) (ha : 0 ≤ a) (x : ℝ) (n : ℕ) : hJac a x 1 n = (jacobiPoly a 0 n).eval x := by
  rw [hJac_one a ha, Polynomial.coe_aeval_eq_eval]

noncomputable def lineRaw (i : ℕ) : MvPolynomial (Fin 1) ℝ := hJac 0 (X 0) 1 i

theorem line_orth (i j : ℕ) : ∫ x in refSimplex 1, eval x (lineRaw i) * eval x (lineRaw j) =
    if i = j then 2 / (2 * (i : ℝ) + 1) else (0 : ℝ) := by
  have h := orth_succ (ι := Unit) 0 (fun _ _ => 1) (fun _ => 0) (fun _ => 1) (by intro i j; rw [integral_refSimplex_zero]; simp)
    (fun α x => eval x (lineRaw α.2)) (fun α => (lineRaw α.2).continuous_eval) (by
      intro i r x z
      simp only [lineRaw, hJac_eval, eval_X, map_one, pow_zero, one_mul, Nat.cast_zero, mul_zero, add_zero]
      rw [hJac_real 0 le_rfl]
      congr 1) ((), i) ((), j)
  simp only [Prod.mk.injEq, true_and, Nat.cast_zero, mul_zero, add_zero, one_mul] at h
  exact h

noncomputable def triPoly (i : ℕ × ℕ) : MvPolynomial (Fin 2) ℝ := triRaw (X 0) (X 1) i

theorem triPoly_eval (i : ℕ × ℕ) (x : Fin 2 → ℝ) : eval x (triPoly i) = triRaw (x 0) (x 1) i := by
  simp only [triPoly, triRaw, map_mul, hJac_eval, map_add, map_sub, eval_X, algebraMap_eq, eval_C, map_one,
    Algebra.algebraMap_self_apply]

theorem tri_orth (i j : ℕ × ℕ) : ∫ x in refSimplex 2, eval x (triPoly i) * eval x (triPoly j) =
    if i = j then 2 / (2 * (i.1 : ℝ) + 1) * (2 / (2 * (i.2 : ℝ) + (2 * i.1 + 1) + 1)) else (0 : ℝ) := by
  have h := orth_succ 1 (fun i x => eval x (lineRaw i)) (fun i => i) _ line_orth
    (fun α x => eval x (triPoly α)) (fun α => (triPoly α).continuous_eval) (by
      intro i r x z
      rw [triPoly_eval]
      have e0 : (Fin.snoc (fun l => (1 - z) / 2 * (x l + 1) - 1) z : Fin 2 → ℝ) 0 = (1 - z) / 2 * (x 0 + 1) - 1 := rfl
      have e1 : (Fin.snoc (fun l => (1 - z) / 2 * (x l + 1) - 1) z : Fin 2 → ℝ) 1 = z := rfl
      simp only [triRaw, e0, e1, Algebra.algebraMap_self_apply, lineRaw, hJac_eval, eval_X, map_one, Nat.cast_one]
      rw [show (1 / 2 : ℝ) * (1 + 2 * ((1 - z) / 2 * (x 0 + 1) - 1) + z) = (1 - z) / 2 * x 0 by ring,
        show (1 / 2 : ℝ) * (1 - z) = (1 - z) / 2 * 1 by ring, hJac_smul, hJac_real _ (by positivity) z]
      ring) i j
  simpa using h

noncomputable def tetPoly (i : ℕ × ℕ × ℕ) : MvPolynomial (Fin 3) ℝ := tetRaw (X 0) (X 1) (X 2) i

theorem tetPoly_eval (i : ℕ × ℕ × ℕ) (x : Fin 3 → ℝ) : eval x (tetPoly i) = tetRaw (x 0) (x 1) (x 2) i := by
  simp only [tetPoly, tetRaw, map_mul, hJac_eval, map_add, map_sub, map_neg, eval_X, algebraMap_eq, eval_C, map_one,
    Algebra.algebraMap_self_apply]

theorem tet_orth (i j : ℕ × ℕ × ℕ) : ∫ x in refSimplex 3, eval x (tetPoly i) * eval x (tetPoly j) =
    if i = j then 2 / (2 * (i.1 : ℝ) + 1) * (2 / (2 * (i.2.1 : ℝ) + (2 * i.1 + 1) + 1)) *
      (2 / (2 * (i.2.2 : ℝ) + (2 * ((i.1 : ℝ) + i.2.1) + 2) + 1)) else (0 : ℝ) := by
  have h := orth_succ 2 (fun i x => eval x (triPoly i)) (fun i => i.1 + i.2) _ tri_orth
    (fun α x => eval x (tetPoly (α.1.1, α.1.2, α.2))) (fun α => (tetPoly _).continuous_eval) (by
      rintro ⟨p, q⟩ r x z
      rw [tetPoly_eval, triPoly_eval]
      have e0 : (Fin.snoc (fun l => (1 - z) / 2 * (x l + 1) - 1) z : Fin 3 → ℝ) 0 = (1 - z) / 2 * (x 0 + 1) - 1 := rfl
      have e1 : (Fin.snoc (fun l => (1 - z) / 2 * (x l + 1) - 1) z : Fin 3 → ℝ) 1 = (1 - z) / 2 * (x 1 + 1) - 1 := rfl
      have e2 : (Fin.snoc (fun l => (1 - z) / 2 * (x l + 1) - 1) z : Fin 3 → ℝ) 2 = z := rfl
      simp only [tetRaw, triRaw, e0, e1, e2, Algebra.algebraMap_self_apply]
      rw [show (1 / 2 : ℝ) * (2 + 2 * ((1 - z) / 2 * (x 0 + 1) - 1) + ((1 - z) / 2 * (x 1 + 1) - 1) + z) =
          (1 - z) / 2 * (1 / 2 * (1 + 2 * x 0 + x 1)) by ring,
        show -((1 / 2 : ℝ) * ((1 - z) / 2 * (x 1 + 1) - 1 + z)) = (1 - z) / 2 * (1 / 2 * (1 - x 1)) by ring,
        show (1 / 2 : ℝ) * (1 + 2 * ((1 - z) / 2 * (x 1 + 1) - 1) + z) = (1 - z) / 2 * x 1 by ring,
        show (1 / 2 : ℝ) * (1 - z) = (1 - z) / 2 * 1 by ring, hJac_smul 0, hJac_smul (2 * (p : ℝ) + 1) ((1 - z) / 2) (x 1) 1, hJac_real _ (by positivity) z]
      rw [show (2 * ((p + q : ℕ) : ℝ) + ((2 : ℕ) : ℝ)) = 2 * p + 2 * q + 2 by push_cast; ring, pow_add]
      ring) ((i.1, i.2.1), i.2.2) ((j.1, j.2.1), j.2.2)
  have e : (((i.1, i.2.1), i.2.2) = ((j.1, j.2.1), j.2.2)) ↔ i = j := by
    obtain ⟨p, q, r⟩ := i
    obtain ⟨p', q', r'⟩ := j
    simp only [Prod.mk.injEq]; tauto
  simp only [e] at h
  rw [h]
  push_cast
  rfl

theorem normalise {d : ℕ} {ι : Type} [DecidableEq ι] (P : ι → MvPolynomial (Fin d) ℝ) (c s : ι → ℝ)
    (hP : ∀ i j, ∫ x in refSimplex d, eval x (P i) * eval x (P j) = if i = j then c i else 0)
    (hs : ∀ i, s i * s i * c i = 1) (i j : ι) :
    ∫ x in refSimplex d, eval x (P i * C (s i)) * eval x (P j * C (s j)) = if i = j then 1 else 0 := by
  have e : ∀ x, eval x (P i * C (s i)) * eval x (P j * C (s j)) = (s i * s j) * (eval x (P i) * eval x (P j)) := by
    intro x; simp only [map_mul, eval_C]; ring
  simp only [e]
  rw [integral_const_mul, hP]
  by_cases h : i = j
  · subst h; simp [hs]
  · simp [h]

theorem degree_scale {d : ℕ} (p : MvPolynomial (Fin d) ℝ) (c : ℝ) (k : ℕ) (h : p.totalDegree ≤ k) :
    (p * C c).totalDegree ≤ k := by
  refine (totalDegree_mul _ _).trans ?_
  rw [totalDegree_C]; exact h

theorem lin_degree {d : ℕ} (p : MvPolynomial (Fin d) ℝ) (c : ℝ) (h : p.totalDegree ≤ 1) :
    ((algebraMap ℝ (MvPolynomial (Fin d) ℝ) c) * p).totalDegree ≤ 1 := by
  rw [algebraMap_eq, mul_comm]; exact degree_scale p c 1 h

theorem add_degree {d : ℕ} {p q : MvPolynomial (Fin d) ℝ} {k : ℕ} (hp : p.totalDegree ≤ k) (hq : q.totalDegree ≤ k) :
    (p + q).totalDegree ≤ k := (totalDegree_add _ _).trans (max_le hp hq)

theorem sub_degree {d : ℕ} {p q : MvPolynomial (Fin d) ℝ} {k : ℕ} (hp : p.totalDegree ≤ k) (hq : q.totalDegree ≤ k) :
    (p - q).totalDegree ≤ k := (totalDegree_sub _ _).trans (max_le hp hq)

theorem X_degree {d : ℕ} (i : Fin d) : (X i : MvPolynomial (Fin d) ℝ).totalDegree ≤ 1 := by
  rw [totalDegree_X]

theorem one_degree {d : ℕ} : (1 : MvPolynomial (Fin d) ℝ).totalDegree ≤ 1 := by simp

theorem c_degree {d : ℕ} (c : ℝ) : (algebraMap ℝ (MvPolynomial (Fin d) ℝ) c).totalDegree ≤ 1 := by
  rw [algebraMap_eq, totalDegree_C]; omega

noncomputable def lineBasis : RefBasis 1 where
  ι := ℕ
  dec := inferInstance
  ix := fun i => i
  deg := fun i => i
  ψ := fun i => lineRaw i * C (Real.sqrt (i + 1 / 2))
  inj := fun _ _ h => h
  surj := fun i => ⟨i, rfl⟩
  lt := by intro i k; simp
  degree := fun i => degree_scale _ _ _ (hJac_degree _ _ _ (X_degree 0) one_degree i)
  ortho := normalise _ _ _ line_orth fun i => by
    rw [Real.mul_self_sqrt (by positivity)]
    have : (2 : ℝ) * i + 1 ≠ 0 := by positivity
    field_simp

noncomputable def triBasis : RefBasis 2 where
  ι := ℕ × ℕ
  dec := inferInstance
  ix := fun i => idx2 i.1 i.2
  deg := fun i => i.1 + i.2
  ψ := fun i => triPoly i * C (triScale i)
  inj := idx2_inj
  surj := fun m => by obtain ⟨p, q, h⟩ := idx2_surj m; exact ⟨(p, q), h⟩
  lt := by
    intro i k
    rw [← idx2_lt, choose_two', Nat.mul_div_cancel _ (by norm_num)]
  degree := fun i => by
    refine degree_scale _ _ _ ?_
    refine (totalDegree_mul _ _).trans (Nat.add_le_add ?_ ?_)
    · exact hJac_degree _ _ _ (lin_degree _ _ (add_degree (add_degree one_degree (lin_degree _ _ (X_degree 0))) (X_degree 1)))
        (lin_degree _ _ (sub_degree one_degree (X_degree 1))) _
    · exact hJac_degree _ _ _ (X_degree 1) one_degree _
  ortho := normalise _ _ _ tri_orth fun i => by
    rw [triScale, Real.mul_self_sqrt (by positivity)]
    have h1 : (2 : ℝ) * i.1 + 1 ≠ 0 := by positivity
    have h2 : (2 : ℝ) * i.2 + (2 * i.1 + 1) + 1 ≠ 0 := by positivity
    field_simp
    ring

noncomputable def tetBasis : RefBasis 3 where
  ι := ℕ × ℕ × ℕ
  dec := inferInstance
  ix := fun i => idx3 i.1 i.2.1 i.2.2
  deg := fun i => i.1 + i.2.1 + i.2.2
  ψ := fun i => tetPoly i * C (tetScale i)
  inj := idx3_inj
  surj := fun m => by obtain ⟨p, q, r, h⟩ := idx3_surj m; exact ⟨(p, q, r), h⟩
  lt := by
    intro i k
    rw [← idx3_lt, choose_three', Nat.mul_div_cancel _ (by norm_num)]
  degree := fun i => by
    refine degree_scale _ _ _ ?_
    refine (totalDegree_mul _ _).trans (Nat.add_le_add ((totalDegree_mul _ _).trans (Nat.add_le_add ?_ ?_)) ?_)
    · refine hJac_degree _ _ _ (lin_degree _ _ (add_degree (add_degree (add_degree (c_degree 2)
        (lin_degree _ _ (X_degree 0))) (X_degree 1)) (X_degree 2))) ?_ _
      rw [totalDegree_neg]
      exact lin_degree _ _ (add_degree (X_degree 1) (X_degree 2))
    · exact hJac_degree _ _ _ (lin_degree _ _ (add_degree (add_degree one_degree (lin_degree _ _ (X_degree 1))) (X_degree 2)))
        (lin_degree _ _ (sub_degree one_degree (X_degree 2))) _
    · exact hJac_degree _ _ _ (X_degree 2) one_degree _
  ortho := normalise _ _ _ tet_orth fun i => by
    rw [tetScale, Real.mul_self_sqrt (by positivity)]
    have h1 : (2 : ℝ) * i.1 + 1 ≠ 0 := by positivity
    have h2 : (2 : ℝ) * i.2.1 + (2 * i.1 + 1) + 1 ≠ 0 := by positivity
    have h3 : (2 : ℝ) * i.2.2 + (2 * (i.1 + i.2.1) + 2) + 1 ≠ 0 := by positivity
    field_simp
    ring

end raw
end FIAT
