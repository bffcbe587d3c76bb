/-
The integral of a cubic polynomial over a triangle (C61, C62).
-/
import Verif.Lemmas.Cubic
import Verif.Lemmas.Dirichlet

namespace FIAT
open MvPolynomial MeasureTheory
section

theorem tri_monomial (a b : ℕ) : ∫ x in convexHull ℝ (Set.range (ufcVert 2)), x 0 ^ a * x 1 ^ b =
    (a.factorial * b.factorial : ℕ) / ((a + b + 2).factorial : ℝ) := by
  have := ufc_monomial 2 ![a, b]
  simp only [Fin.prod_univ_two, Fin.sum_univ_two, Matrix.cons_val_zero, Matrix.cons_val_one] at this
  rw [this, add_comm 2]

theorem tri_terms (l : List (ℝ × ℕ × ℕ)) (f : (Fin 2 → ℝ) → ℝ) (hf : ∀ x, f x = (l.map fun t => t.1 * (x 0 ^ t.2.1 * x 1 ^ t.2.2)).sum) :
    ∫ x in convexHull ℝ (Set.range (ufcVert 2)), f x =
      (l.map fun t => t.1 * ((t.2.1.factorial * t.2.2.factorial : ℕ) / ((t.2.1 + t.2.2 + 2).factorial : ℝ))).sum := by
  have key : Integrable f (volume.restrict (convexHull ℝ (Set.range (ufcVert 2)))) ∧ ∫ x in convexHull ℝ (Set.range (ufcVert 2)), f x =
      (l.map fun t => t.1 * ((t.2.1.factorial * t.2.2.factorial : ℕ) / ((t.2.1 + t.2.2 + 2).factorial : ℝ))).sum := by
    obtain rfl : f = fun x => (l.map fun t => t.1 * (x 0 ^ t.2.1 * x 1 ^ t.2.2)).sum := _root_.funext hf
    clear hf
    induction l with
    | nil => simp
    | cons t l ih =>
      have h1 : Integrable (fun x : Fin 2 → ℝ => t.1 * (x 0 ^ t.2.1 * x 1 ^ t.2.2)) (volume.restrict (convexHull ℝ (Set.range (ufcVert 2)))) :=
        hull_integrable (ufcVert 2) (by fun_prop)
      simp only [List.map_cons, List.sum_cons]
      refine ⟨h1.add ih.1, ?_⟩
      rw [integral_add h1 ih.1, ih.2, integral_const_mul, tri_monomial]
  exact key.2

/-- The integral over a triangle, in the coordinates of the triangle. -/
theorem tri_pull (s : SimplexCell (Fin 2 → ℝ)) (hdet : (edgeMatrix fun i : Fin 3 => s.v i).det ≠ 0) (f : (Fin 2 → ℝ) → ℝ) :
    ∃ K : ℝ, K ≠ 0 ∧ ∫ x in convexHull ℝ (Set.range fun i : Fin 3 => s.v i), f x =
      K * ∫ y in convexHull ℝ (Set.range (ufcVert 2)), f (triPt s y) := by
  have h1 := integral_simplex (fun i : Fin 3 => s.v i) ((1 / 2 : ℝ) • edgeMatrix fun i : Fin 3 => s.v i)
    (fun j => (s.v 1 j + s.v 2 j) / 2) (by
      intro i
      funext j
      fin_cases i <;> simp [dvert, edgeMatrix, Matrix.mulVec, dotProduct, Fin.sum_univ_two] <;> ring) (by
      rw [Matrix.det_smul]
      simp [hdet]) f
  refine ⟨4 * |((1 / 2 : ℝ) • edgeMatrix fun i : Fin 3 => s.v i).det|, ?_, ?_⟩
  · rw [Matrix.det_smul]
    simp [hdet]
  · rw [h1, ufc_integral]
    have : ∀ x : Fin 2 → ℝ, affineApply ((1 / 2 : ℝ) • edgeMatrix fun i : Fin 3 => s.v i) (fun j => (s.v 1 j + s.v 2 j) / 2) x =
        triPt s fun i => (x i + 1) / 2 := by
      intro x
      funext j
      simp [affineApply, triPt, edgeMatrix, Matrix.mulVec, dotProduct, Fin.sum_univ_two]
      ring
    simp only [this]
    ring

/-- A polynomial of degree at most three has integral zero over the triangle exactly if a combination of its coefficients vanishes. -/
theorem tri_cubic (s : SimplexCell (Fin 2 → ℝ)) (hdet : (edgeMatrix fun i : Fin 3 => s.v i).det ≠ 0) (f : (Fin 2 → ℝ) → ℝ) (A : ℕ → ℕ → ℝ)
    (hf : ∀ x y : ℝ, f (triPt s ![x, y]) = A 0 0 + A 1 0 * x + A 0 1 * y + A 2 0 * x ^ 2 + A 1 1 * x * y + A 0 2 * y ^ 2 +
      A 3 0 * x ^ 3 + A 2 1 * x ^ 2 * y + A 1 2 * x * y ^ 2 + A 0 3 * y ^ 3)
    (hz : ∫ x in convexHull ℝ (Set.range fun i : Fin 3 => s.v i), f x = 0) :
    A 0 0 / 2 + (A 1 0 + A 0 1) / 6 + (A 2 0 + A 0 2) / 12 + A 1 1 / 24 + (A 3 0 + A 0 3) / 20 + (A 2 1 + A 1 2) / 60 = 0 := by
  obtain ⟨K, k1, k2⟩ := tri_pull s hdet f
  rw [hz, tri_terms [(A 0 0, 0, 0), (A 1 0, 1, 0), (A 0 1, 0, 1), (A 2 0, 2, 0), (A 1 1, 1, 1), (A 0 2, 0, 2), (A 3 0, 3, 0), (A 2 1, 2, 1),
    (A 1 2, 1, 2), (A 0 3, 0, 3)] _ (fun y => by
      have : y = ![y 0, y 1] := by funext i; fin_cases i <;> rfl
      rw [this, hf]
      simp
      ring)] at k2
  have := (mul_eq_zero.1 k2.symm).resolve_left k1
  simp only [List.map_cons, List.map_nil, List.sum_cons, List.sum_nil] at this
  norm_num [Nat.factorial] at this
  linarith

end
end FIAT
