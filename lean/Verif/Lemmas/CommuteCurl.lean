/-
C74: vanishing tangential moments of a field make the moments of its curl vanish (Green's and Stokes' theorems for polynomials).
-/
import Verif.Lemmas.Commute
import Mathlib.LinearAlgebra.CrossProduct

open MeasureTheory
namespace FIAT
open MvPolynomial

section plane

/-- A vector of the plane orthogonal to `t ≠ 0` is a multiple of the rotation of `t`. -/
theorem perp_rot {g t : Fin 2 → ℝ} (ht : t ≠ 0) (h : g 0 * t 0 + g 1 * t 1 = 0) : ∃ c, g 0 = c * t 1 ∧ g 1 = -(c * t 0) := by
  have hn : t 0 ^ 2 + t 1 ^ 2 ≠ 0 := by
    intro h0
    apply ht
    have h1 : t 0 = 0 := by nlinarith [sq_nonneg (t 0), sq_nonneg (t 1)]
    have h2 : t 1 = 0 := by nlinarith [sq_nonneg (t 0), sq_nonneg (t 1)]
    funext j
    fin_cases j
    · exact h1
    · exact h2
  refine ⟨(g 0 * t 1 - g 1 * t 0) / (t 0 ^ 2 + t 1 ^ 2), ?_, ?_⟩
  · field_simp
    linear_combination (t 0) * h
  · field_simp
    linear_combination (t 1) * h

/-- Green's theorem in the form needed: no tangential moments on the edges, no moments on the triangle. -/
theorem scurl_moments {v : Fin 3 → Fin 2 → ℝ} (hi : AffineIndependent ℝ v) (hdet : (edgeMatrix v).det ≠ 0) {k : ℕ} {w : Fin 2 → MvPolynomial (Fin 2) ℝ}
    (he : ∀ i, ∃ τ : Fin 2 → Fin 3, Function.Injective τ ∧ (∀ r, τ r ≠ i) ∧ ∀ φ : MvPolynomial (Fin 1) ℝ, φ.totalDegree ≤ k →
      ∫ y in convexHull ℝ (Set.range (ufcVerts ℝ 1)), eval y (φ * tangPull (fun r => v (τ r)) w 0) = 0)
    (hc : ∀ p : MvPolynomial (Fin 2) ℝ, p.totalDegree ≤ k → ∫ x in convexHull ℝ (Set.range v), eval x (w 1 * pderiv 0 p - w 0 * pderiv 1 p) = 0)
    (p : MvPolynomial (Fin 2) ℝ) (hp : p.totalDegree ≤ k) :
    ∫ x in convexHull ℝ (Set.range v), eval x (p * scurlP w) = 0 := by
  obtain ⟨g, b, hb⟩ := baryForms_exist v hi
  choose τ t1 t2 t3 using he
  have hdt := divergence_theorem (d := 1) v hdet hb τ t1 t2 ![p * w 1, -(p * w 0)]
  have hz : ∀ i, ∫ y in convexHull ℝ (Set.range (ufcVert 1)), ∑ j, g i j * eval (entMap (fun r => v (τ i r)) y) ((![p * w 1, -(p * w 0)] : Fin 2 → MvPolynomial (Fin 2) ℝ) j) = 0 := by
    intro i
    have ht : v (τ i 1) - v (τ i 0) ≠ 0 := by
      intro h
      have := t1 i (hi.injective (sub_eq_zero.1 h))
      simp at this
    obtain ⟨c, c1, c2⟩ := perp_rot (g := g i) ht (by
      have h1 := hb.at_vertex i (τ i 1)
      have h0 := hb.at_vertex i (τ i 0)
      rw [if_neg (t2 i 1).symm, eval_linForm, Fin.sum_univ_two] at h1
      rw [if_neg (t2 i 0).symm, eval_linForm, Fin.sum_univ_two] at h0
      simp only [Pi.sub_apply]
      linarith)
    have h3 := t3 i (pullback (v (τ i 0)) (fun r : Fin 1 => v (τ i r.succ)) p) ((totalDegree_pullback _ _ _).trans hp)
    rw [ufcVerts_eq] at h3
    rw [← mul_zero c, ← h3, ← integral_const_mul]
    refine congrArg _ (_root_.funext fun y => ?_)
    rw [map_mul, eval_pull (fun r => v (τ i r)) p y, eval_tangPull, Fin.sum_univ_two, Fin.sum_univ_two, c1, c2]
    show c * (v (τ i 1) - v (τ i 0)) 1 * eval _ (p * w 1) + -(c * (v (τ i 1) - v (τ i 0)) 0) * eval _ (-(p * w 0)) =
      c * (eval _ p * ((v (τ i 1) 0 - v (τ i 0) 0) * eval _ (w 0) + (v (τ i 1) 1 - v (τ i 0) 1) * eval _ (w 1)))
    rw [map_neg, map_mul, map_mul, Pi.sub_apply, Pi.sub_apply]
    ring
  rw [Finset.sum_eq_zero fun i _ => hz i, mul_zero] at hdt
  have hint : ∀ q : MvPolynomial (Fin 2) ℝ, IntegrableOn (fun x => eval x q) (convexHull ℝ (Set.range v)) := fun q => hull_integrable _ q.continuous_eval
  have hsplit : ∀ x, eval x (divergence ![p * w 1, -(p * w 0)]) = eval x (p * scurlP w) + eval x (w 1 * pderiv 0 p - w 0 * pderiv 1 p) := by
    intro x
    rw [← map_add]
    congr 1
    unfold divergence scurlP
    rw [Fin.sum_univ_two]
    show pderiv 0 (p * w 1) + pderiv 1 (-(p * w 0)) = _
    rw [map_neg, pderiv_mul, pderiv_mul]
    ring
  simp only [hsplit] at hdt
  rw [integral_add (hint _) (hint _), hc p hp, add_zero] at hdt
  exact hdt

/-- Moments of the components suffice on the triangle. -/
theorem scurl_cell {v : Fin 3 → Fin 2 → ℝ} {k : ℕ} {w : Fin 2 → MvPolynomial (Fin 2) ℝ}
    (hc : ∀ p : MvPolynomial (Fin 2) ℝ, p.totalDegree < k → ∀ j, ∫ x in convexHull ℝ (Set.range v), eval x (w j * p) = 0)
    (p : MvPolynomial (Fin 2) ℝ) (hp : p.totalDegree ≤ k) : ∫ x in convexHull ℝ (Set.range v), eval x (w 1 * pderiv 0 p - w 0 * pderiv 1 p) = 0 := by
  have h : ∀ i j : Fin 2, ∫ x in convexHull ℝ (Set.range v), eval x (w i * pderiv j p) = 0 := by
    intro i j
    have h1 := totalDegree_pderiv_sub j p
    by_cases hk : k = 0
    · rw [totalDegree_eq_zero_iff_eq_C.1 (show p.totalDegree = 0 by omega), pderiv_C]
      simp
    · exact hc _ (by omega) i
  simp only [map_sub]
  rw [integral_sub (hull_integrable _ (w 1 * pderiv 0 p).continuous_eval) (hull_integrable _ (w 0 * pderiv 1 p).continuous_eval), h, h, sub_zero]

end plane

section spec
variable {D : ℕ}

/-- The moments of the tangential component of `v` on the edges against the polynomials of degree at most `k` vanish. -/
def EdgeMomentsZero (s : SimplexCell (Fin D → ℝ)) (k : ℕ) (v : Fin D → MvPolynomial (Fin D) ℝ) : Prop :=
  ∀ e (τ : Fin 2 → ℕ), HasEntity s.topo 1 e (List.ofFn τ) → ∀ φ : MvPolynomial (Fin 1) ℝ, φ.totalDegree ≤ k →
    ∫ y in convexHull ℝ (Set.range (ufcVerts ℝ 1)), eval y (φ * tangPull (fun r => s.v (τ r)) v 0) = 0

/-- The moments of the tangential components of `v` on the faces against the polynomials of degree less than `k` vanish. -/
def FaceMomentsZero (s : SimplexCell (Fin D → ℝ)) (k : ℕ) (v : Fin D → MvPolynomial (Fin D) ℝ) : Prop :=
  ∀ e (τ : Fin 3 → ℕ), HasEntity s.topo 2 e (List.ofFn τ) → ∀ p : MvPolynomial (Fin 2) ℝ, p.totalDegree < k → ∀ a,
    ∫ y in convexHull ℝ (Set.range (ufcVerts ℝ 2)), eval y (tangPull (fun r => s.v (τ r)) v a * p) = 0

end spec

section triangle

theorem scurl_moments_cell {s : SimplexCell (Fin 2 → ℝ)} (hs : ProperSimplex ℝ s) (ho : 0 < orientation fun i : Fin (2 + 1) => s.v i) {k : ℕ}
    {w : Fin 2 → MvPolynomial (Fin 2) ℝ} (he : EdgeMomentsZero s k w)
    (hc : ∀ p : MvPolynomial (Fin 2) ℝ, p.totalDegree ≤ k → ∫ x in convexHull ℝ (Set.range fun i : Fin (2 + 1) => s.v i), eval x (w 1 * pderiv 0 p - w 0 * pderiv 1 p) = 0)
    (p : MvPolynomial (Fin 2) ℝ) (hp : p.totalDegree ≤ k) :
    ∫ x in convexHull ℝ (Set.range fun i : Fin (2 + 1) => s.v i), eval x (p * scurlP w) = 0 := by
  refine scurl_moments (proper_independent hs) ho.ne' (fun i => ?_) hc p hp
  obtain ⟨e, t, h1, h2⟩ := facet_of_vertex (by omega) hs i
  obtain ⟨τ, t1, t2, rfl, -⟩ := entity_tuple (d := 1) hs h1
  refine ⟨fun r => ⟨τ r, t2 r⟩, fun a b hab => t1 (by simpa using hab), fun r hr => ?_, fun φ hφ => he e τ h1 φ hφ⟩
  have := (h2 (τ r)).1 ((List.mem_ofFn' τ _).2 ⟨r, rfl⟩)
  exact this.2 (by rw [← hr])

end triangle

section space

/-- The tangential pull-back composes. -/
theorem tangPull_comp {D d n : ℕ} (vc : Fin (n + 1) → Fin D → ℝ) (σ : Fin (d + 1) → Fin (n + 1)) (w : Fin D → MvPolynomial (Fin D) ℝ) (a : Fin d) :
    tangPull (fun r => ufcVerts ℝ n (σ r)) (tangPull vc w) a = tangPull (fun r => vc (σ r)) w a := by
  refine MvPolynomial.funext fun y => ?_
  have h1 : ∀ l : Fin (n + 1), ∑ j, ufcVerts ℝ n l j * eval (entMap (fun r => ufcVerts ℝ n (σ r)) y) (tangPull vc w j) =
      ∑ j, (vc l j - vc 0 j) * eval (entMap (fun r => vc (σ r)) y) (w j) := by
    intro l
    rw [← eval_dotC, dotC_tangPull]
    have : entMap vc (entMap (fun r => ufcVerts ℝ n (σ r)) y) = entMap (fun r => vc (σ r)) y := by
      rw [ufcVerts_eq]; exact entMap_comp vc σ y
    rw [this]
  rw [eval_tangPull, eval_tangPull]
  simp only [sub_mul, Finset.sum_sub_distrib] at h1 ⊢
  rw [h1, h1]
  ring

theorem pderiv_pullback {D d : ℕ} (vc : Fin (d + 1) → Fin D → ℝ) (p : MvPolynomial (Fin D) ℝ) (a : Fin d) :
    pderiv a (pullback (vc 0) (fun i => vc i.succ) p) = ∑ l, C (vc a.succ l - vc 0 l) * pullback (vc 0) (fun i => vc i.succ) (pderiv l p) := by
  unfold pullback
  refine pderiv_aeval _ a (fun l => vc a.succ l - vc 0 l) (fun l => ?_) p
  rw [map_add, pderiv_C, zero_add, map_sum, Finset.sum_eq_single a]
  · rw [pderiv_C_mul, pderiv_X_self]
    simp
  · intro b _ hb
    rw [pderiv_C_mul, pderiv_X_of_ne (fun h => hb h), mul_zero]
  · simp

/-- The normal `t₁ × t₂` of a triangle. -/
noncomputable def triNormal (vc : Fin 3 → Fin 3 → ℝ) : Fin 3 → ℝ := crossProduct (vc 1 - vc 0) (vc 2 - vc 0)

theorem triNormal_apply (vc : Fin 3 → Fin 3 → ℝ) : triNormal vc =
    ![(vc 1 - vc 0) 1 * (vc 2 - vc 0) 2 - (vc 1 - vc 0) 2 * (vc 2 - vc 0) 1, (vc 1 - vc 0) 2 * (vc 2 - vc 0) 0 - (vc 1 - vc 0) 0 * (vc 2 - vc 0) 2,
      (vc 1 - vc 0) 0 * (vc 2 - vc 0) 1 - (vc 1 - vc 0) 1 * (vc 2 - vc 0) 0] := cross_apply _ _

/-- The scalar curl of the tangential trace is the normal component of the curl. -/
theorem scurl_tangPull (vc : Fin 3 → Fin 3 → ℝ) (w : Fin 3 → MvPolynomial (Fin 3) ℝ) (y : Fin 2 → ℝ) :
    eval y (scurlP (tangPull vc w)) = ∑ j, triNormal vc j * eval (entMap vc y) (curlP w j) := by
  have h : ∀ a b : Fin 2, eval y (pderiv a (tangPull vc w b)) =
      ∑ j, (vc b.succ j - vc 0 j) * ∑ l, (vc a.succ l - vc 0 l) * eval (entMap vc y) (pderiv l (w j)) := by
    intro a b
    unfold tangPull
    rw [map_sum, map_sum]
    refine Finset.sum_congr rfl fun j _ => ?_
    rw [pderiv_C_mul, map_mul, eval_C, pderiv_pullback, map_sum]
    congr 1
    exact Finset.sum_congr rfl fun l _ => by rw [map_mul, eval_C, eval_pull]
  unfold scurlP
  rw [map_sub, h, h, triNormal_apply]
  unfold curlP
  simp only [Fin.sum_univ_three, Fin.succ_zero_eq_one, Fin.succ_one_eq_two, Matrix.cons_val_zero, Matrix.cons_val_one, Matrix.cons_val, map_sub,
    Pi.sub_apply]
  ring

theorem triNormal_ne_zero {s : SimplexCell (Fin 3 → ℝ)} (hs : ProperSimplex ℝ s) {τ : Fin 3 → ℕ} (hτ : Function.Injective τ) (hlt : ∀ r, τ r < 3 + 1) :
    triNormal (fun r => s.v (τ r)) ≠ 0 := by
  unfold triNormal
  rw [crossProduct_ne_zero_iff_linearIndependent, LinearIndependent.pair_iff]
  intro a c h
  have := @entMap_injective _ s hs 2 τ hτ hlt ![a, c] 0 (by
    unfold entMap
    rw [Fin.sum_univ_two, Fin.sum_univ_two]
    simpa using h)
  exact ⟨congrFun this 0, congrFun this 1⟩

/-- A vector orthogonal to the triangle is a multiple of its normal. -/
theorem perp_cross {g N t u : Fin 3 → ℝ} (hN : N = crossProduct t u) (h0 : N ≠ 0) (h1 : ∑ j, g j * t j = 0) (h2 : ∑ j, g j * u j = 0) : ∃ c : ℝ, g = c • N := by
  rw [Fin.sum_univ_three] at h1 h2
  rw [cross_apply] at hN
  have e0 : N 0 = t 1 * u 2 - t 2 * u 1 := by rw [hN]; rfl
  have e1 : N 1 = t 2 * u 0 - t 0 * u 2 := by rw [hN]; rfl
  have e2 : N 2 = t 0 * u 1 - t 1 * u 0 := by rw [hN]; rfl
  have hn : N 0 ^ 2 + N 1 ^ 2 + N 2 ^ 2 ≠ 0 := by
    intro h
    apply h0
    have a0 : N 0 = 0 := by nlinarith [sq_nonneg (N 0), sq_nonneg (N 1), sq_nonneg (N 2)]
    have a1 : N 1 = 0 := by nlinarith [sq_nonneg (N 0), sq_nonneg (N 1), sq_nonneg (N 2)]
    have a2 : N 2 = 0 := by nlinarith [sq_nonneg (N 0), sq_nonneg (N 1), sq_nonneg (N 2)]
    funext j
    fin_cases j
    · exact a0
    · exact a1
    · exact a2
  have c01 : N 0 * g 1 = N 1 * g 0 := by rw [e0, e1]; linear_combination (u 2) * h1 - (t 2) * h2
  have c02 : N 0 * g 2 = N 2 * g 0 := by rw [e0, e2]; linear_combination (-u 1) * h1 + (t 1) * h2
  have c12 : N 1 * g 2 = N 2 * g 1 := by rw [e1, e2]; linear_combination (u 0) * h1 - (t 0) * h2
  refine ⟨(N 0 * g 0 + N 1 * g 1 + N 2 * g 2) / (N 0 ^ 2 + N 1 ^ 2 + N 2 ^ 2), ?_⟩
  have key : ∀ j, g j * (N 0 ^ 2 + N 1 ^ 2 + N 2 ^ 2) = (N 0 * g 0 + N 1 * g 1 + N 2 * g 2) * N j := by
    intro j
    fin_cases j
    · show g 0 * _ = _ * N 0
      linear_combination (-N 1) * c01 - (N 2) * c02
    · show g 1 * _ = _ * N 1
      linear_combination (N 0) * c01 - (N 2) * c12
    · show g 2 * _ = _ * N 2
      linear_combination (N 0) * c02 + (N 1) * c12
  funext j
  rw [Pi.smul_apply, smul_eq_mul, div_mul_eq_mul_div, eq_div_iff hn, key j]

end space
end FIAT
