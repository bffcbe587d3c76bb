/-
C74: vanishing moments of a field make the moments of its divergence vanish.
-/
import Verif.Lemmas.DivThm
import Verif.Lemmas.RTDual
import Verif.Lemmas.FacetNatural

open MeasureTheory
namespace FIAT
open MvPolynomial

theorem ufcVerts_eq (d : ℕ) : ufcVerts ℝ d = ufcVert d := by
  funext i l
  refine Fin.cases ?_ (fun i => ?_) i
  · simp [ufcVerts, ufcVert]
  · show (if l = i then (1 : ℝ) else 0) = if (l : ℕ) + 1 = ((i.succ : Fin (d + 1)) : ℕ) then 1 else 0
    congr 1
    rw [Fin.val_succ, Nat.succ_inj, Fin.ext_iff]

section
variable {D : ℕ}

/-- The moments of the normal component of `v` on the facets against the polynomials of degree at most `k` vanish; the facets are
parametrized by the reference facet. -/
def FacetMomentsZero (s : SimplexCell (Fin D → ℝ)) (nrm : ℕ → Option (Fin D → ℝ)) (k : ℕ) (v : Fin D → MvPolynomial (Fin D) ℝ) : Prop :=
  ∀ e (τ : Fin (D - 1 + 1) → ℕ) n, HasEntity s.topo (D - 1) e (List.ofFn τ) → nrm e = some n →
    ∀ φ : MvPolynomial (Fin (D - 1)) ℝ, φ.totalDegree ≤ k →
      ∫ y in convexHull ℝ (Set.range (ufcVerts ℝ (D - 1))), eval y φ * ∑ j, n j * eval (entMap (fun r => s.v (τ r)) y) (v j) = 0

/-- The moments of the components of `v` on the cell against the polynomials of degree less than `k` vanish. -/
def CellMomentsZero (s : SimplexCell (Fin D → ℝ)) (k : ℕ) (v : Fin D → MvPolynomial (Fin D) ℝ) : Prop :=
  ∀ p : MvPolynomial (Fin D) ℝ, p.totalDegree < k → ∀ j, ∫ x in convexHull ℝ (Set.range fun i : Fin (D + 1) => s.v i), eval x (v j * p) = 0

theorem divergence_moments (hD : 1 ≤ D) {s : SimplexCell (Fin D → ℝ)} (hs : ProperSimplex ℝ s) (ho : 0 < orientation fun i : Fin (D + 1) => s.v i) {nrm : ℕ → Option (Fin D → ℝ)}
    (hn : FacetNormals s nrm) {k : ℕ} {v : Fin D → MvPolynomial (Fin D) ℝ} (hf : FacetMomentsZero s nrm k v)
    (hc : ∀ p : MvPolynomial (Fin D) ℝ, p.totalDegree ≤ k → ∫ x in convexHull ℝ (Set.range fun i : Fin (D + 1) => s.v i), ∑ j, eval x (v j * pderiv j p) = 0)
    (p : MvPolynomial (Fin D) ℝ) (hp : p.totalDegree ≤ k) :
    ∫ x in convexHull ℝ (Set.range fun i : Fin (D + 1) => s.v i), eval x (p * divergence v) = 0 := by
  obtain ⟨d, rfl⟩ : ∃ d, D = d + 1 := ⟨D - 1, by omega⟩
  have hi := proper_independent hs
  have hf' : ∀ e (τ : Fin (d + 1) → ℕ) n, HasEntity s.topo d e (List.ofFn τ) → nrm e = some n → ∀ φ : MvPolynomial (Fin d) ℝ, φ.totalDegree ≤ k →
      ∫ y in convexHull ℝ (Set.range (ufcVerts ℝ d)), eval y φ * ∑ j, n j * eval (entMap (fun r => s.v (τ r)) y) (v j) = 0 := hf
  obtain ⟨g, b, hb⟩ := baryForms_exist _ hi
  have hfac : ∀ i : Fin (d + 2), ∃ τ : Fin (d + 1) → Fin (d + 2), Function.Injective τ ∧ (∀ r, τ r ≠ i) ∧
      ∫ y in convexHull ℝ (Set.range (ufcVert d)), ∑ j, g i j * eval (entMap (fun r => s.v (τ r)) y) (p * v j) = 0 := by
    intro i
    obtain ⟨e, t, h1, h2⟩ := facet_of_vertex (by omega) hs i
    obtain ⟨τ, t1, t2, rfl, -⟩ := entity_tuple (d := d) hs h1
    obtain ⟨n, c, n1, n2, n3⟩ := facet_normal (by omega) hn hb h1 h2
    refine ⟨fun r => ⟨τ r, t2 r⟩, fun a b hab => t1 (by simpa using hab), fun r hr => ?_, ?_⟩
    · have := (h2 (τ r)).1 ((List.mem_ofFn' τ _).2 ⟨r, rfl⟩)
      exact this.2 (by rw [← hr])
    · have h3 := hf' e τ n h1 n1 (pullback (s.v (τ 0)) (fun r => s.v (τ r.succ)) p) ((totalDegree_pullback _ _ _).trans hp)
      rw [ufcVerts_eq] at h3
      have h4 : ∀ y : Fin d → ℝ, eval y (pullback (s.v (τ 0)) (fun r => s.v (τ r.succ)) p) * ∑ j, n j * eval (entMap (fun r => s.v (τ r)) y) (v j) =
          c * ∑ j, g i j * eval (entMap (fun r => s.v (τ r)) y) (p * v j) := by
        intro y
        rw [eval_pull (fun r => s.v (τ r)) p y, Finset.mul_sum, Finset.mul_sum, n3]
        refine Finset.sum_congr rfl fun j _ => ?_
        rw [map_mul, Pi.smul_apply, smul_eq_mul]
        ring
      have h5 : c * ∫ y in convexHull ℝ (Set.range (ufcVert d)), ∑ j, g i j * eval (entMap (fun r => s.v (τ r)) y) (p * v j) = 0 := by
        rw [← integral_const_mul, ← h3]
        exact congrArg _ (_root_.funext fun y => (h4 y).symm)
      exact (mul_eq_zero.1 h5).resolve_left n2
  choose τ t1 t2 t3 using hfac
  have hdt := divergence_theorem (fun i : Fin (d + 2) => s.v i) ho.ne' hb τ t1 t2 fun j => p * v j
  rw [Finset.sum_eq_zero fun i _ => t3 i, mul_zero] at hdt
  have hint : ∀ q : MvPolynomial (Fin (d + 1)) ℝ, IntegrableOn (fun x => eval x q) (convexHull ℝ (Set.range fun i : Fin (d + 1 + 1) => s.v i)) :=
    fun q => hull_integrable _ q.continuous_eval
  have hsplit : ∀ x, eval x (divergence fun j => p * v j) = eval x (p * divergence v) + ∑ j, eval x (v j * pderiv j p) := by
    intro x
    unfold divergence
    rw [map_sum, map_mul, map_sum, Finset.mul_sum, ← Finset.sum_add_distrib]
    refine Finset.sum_congr rfl fun j _ => ?_
    rw [pderiv_mul, map_add, map_mul, map_mul, map_mul]
    ring
  simp only [hsplit] at hdt
  rw [integral_add (hint _) (integrable_finset_sum _ fun j _ => hint _), hc p hp, add_zero] at hdt
  exact hdt

/-- Cell moments against components suffice. -/
theorem divergence_moments_cell (hD : 1 ≤ D) {s : SimplexCell (Fin D → ℝ)} (hs : ProperSimplex ℝ s) (ho : 0 < orientation fun i : Fin (D + 1) => s.v i) {nrm : ℕ → Option (Fin D → ℝ)}
    (hn : FacetNormals s nrm) {k : ℕ} {v : Fin D → MvPolynomial (Fin D) ℝ} (hf : FacetMomentsZero s nrm k v) (hc : CellMomentsZero s k v)
    (p : MvPolynomial (Fin D) ℝ) (hp : p.totalDegree ≤ k) :
    ∫ x in convexHull ℝ (Set.range fun i : Fin (D + 1) => s.v i), eval x (p * divergence v) = 0 := by
  refine divergence_moments hD hs ho hn hf (fun p hp => ?_) p hp
  rw [integral_finset_sum _ fun j _ => hull_integrable _ (v j * pderiv j p).continuous_eval]
  refine Finset.sum_eq_zero fun j _ => ?_
  have h1 := totalDegree_pderiv_sub j p
  by_cases hk : k = 0
  · have : pderiv j p = 0 := by
      rw [totalDegree_eq_zero_iff_eq_C.1 (show p.totalDegree = 0 by omega), pderiv_C]
    simp [this]
  · exact hc _ (by omega) j

end
end FIAT
