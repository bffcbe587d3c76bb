/-
C74: Stokes' theorem on the faces and the integration by parts of the curl on the tetrahedron, for polynomial fields.
-/
import Verif.Lemmas.CommuteCurl

open MeasureTheory
namespace FIAT
open MvPolynomial
section

/-- Stokes on a face: without edge and face moments, the normal component of the curl has no moments. -/
theorem face_curl_moments {s : SimplexCell (Fin 3 → ℝ)} (hs : ProperSimplex ℝ s) {k : ℕ} {v : Fin 3 → MvPolynomial (Fin 3) ℝ}
    (he : EdgeMomentsZero s k v) (hf : FaceMomentsZero s k v) {e : ℕ} {τ : Fin 3 → ℕ} (h : HasEntity s.topo 2 e (List.ofFn τ))
    (p : MvPolynomial (Fin 2) ℝ) (hp : p.totalDegree ≤ k) :
    ∫ y in convexHull ℝ (Set.range (ufcVerts ℝ 2)), eval y p * ∑ j, triNormal (fun r => s.v (τ r)) j * eval (entMap (fun r => s.v (τ r)) y) (curlP v j) = 0 := by
  obtain ⟨G, -, -, -, -, g5⟩ := ufc_cell_spec (d := 2) (by omega)
  obtain ⟨τ', t1, t2, t3, -⟩ := entity_tuple hs h
  obtain rfl := ofFn_inj' t3
  have key := scurl_moments (v := ufcVerts ℝ 2) (ufcVerts_affineIndependent 2) g5.ne' (k := k) (w := tangPull (fun r => s.v (τ r)) v) (fun i => ?_)
    (scurl_cell fun p hp a => hf e τ h p hp a) p hp
  · simp only [map_mul, scurl_tangPull] at key
    exact key
  · have hS : ((Finset.univ.erase i).image τ).card = 2 := by
      rw [Finset.card_image_of_injective _ t1, Finset.card_erase_of_mem (Finset.mem_univ i), Finset.card_univ, Fintype.card_fin]
    obtain ⟨d', e', t', h1, h2⟩ := hs.2.1.all ((Finset.univ.erase i).image τ) (by rw [← Finset.card_pos, hS]; omega) (by
      intro x hx
      obtain ⟨j, -, rfl⟩ := Finset.mem_image.1 hx
      rw [hs.1, Finset.mem_range]; exact t2 j)
    obtain ⟨n1, n2, -⟩ := hs.2.1.entity _ _ _ h1
    obtain rfl : d' = 1 := by
      have := List.toFinset_card_of_nodup n1
      rw [h2, hS, n2] at this
      omega
    obtain ⟨ρ, r1, r2, rfl, -⟩ := entity_tuple hs h1
    have hmem : ∀ r, ∃ j, j ≠ i ∧ τ j = ρ r := by
      intro r
      have : ρ r ∈ (List.ofFn ρ).toFinset := List.mem_toFinset.2 ((List.mem_ofFn' ρ _).2 ⟨r, rfl⟩)
      rw [h2, Finset.mem_image] at this
      simpa using this
    choose σ σ1 σ2 using hmem
    refine ⟨σ, fun a b hab => r1 ?_, σ1, fun φ hφ => ?_⟩
    · rw [← σ2, ← σ2, hab]
    · have := he e' ρ h1 φ hφ
      rw [tangPull_comp (fun r => s.v (τ r)) σ v 0]
      simp only [σ2]
      exact this

/-- The facet moments of the curl. -/
theorem curl_facet_moments {s : SimplexCell (Fin 3 → ℝ)} (hs : ProperSimplex ℝ s) {nrm : ℕ → Option (Fin 3 → ℝ)} (hn : FacetNormals s nrm)
    {k : ℕ} {v : Fin 3 → MvPolynomial (Fin 3) ℝ} (he : EdgeMomentsZero s k v) (hf : FaceMomentsZero s k v) : FacetMomentsZero s nrm k (curlP v) := by
  have main : ∀ e (τ : Fin 3 → ℕ) n, HasEntity s.topo 2 e (List.ofFn τ) → nrm e = some n → ∀ φ : MvPolynomial (Fin 2) ℝ, φ.totalDegree ≤ k →
      ∫ y in convexHull ℝ (Set.range (ufcVerts ℝ 2)), eval y φ * ∑ j, n j * eval (entMap (fun r => s.v (τ r)) y) (curlP v j) = 0 := by
    intro e τ n h h1 φ hφ
    obtain ⟨n', n1, -, n3⟩ := hn e _ h
    obtain rfl : n = n' := Option.some.inj (h1.symm.trans n1)
    obtain ⟨τ', t1, t2, t3, -⟩ := entity_tuple hs h
    obtain rfl := ofFn_inj' t3
    have hm : ∀ r, τ r ∈ List.ofFn τ := fun r => (List.mem_ofFn' τ _).2 ⟨r, rfl⟩
    obtain ⟨c, rfl⟩ := perp_cross (g := n) (N := triNormal fun r => s.v (τ r)) rfl (triNormal_ne_zero hs t1 t2)
      (n3 _ (hm 1) _ (hm 0)) (n3 _ (hm 2) _ (hm 0))
    have := face_curl_moments hs he hf h φ hφ
    rw [← mul_zero c, ← this, ← integral_const_mul]
    refine congrArg _ (_root_.funext fun y => ?_)
    simp only [Finset.mul_sum, Pi.smul_apply, smul_eq_mul]
    exact Finset.sum_congr rfl fun j _ => by ring
  exact main

/-- The cross product of two fields. -/
noncomputable def crossP (v q : Fin 3 → MvPolynomial (Fin 3) ℝ) : Fin 3 → MvPolynomial (Fin 3) ℝ :=
  ![v 1 * q 2 - v 2 * q 1, v 2 * q 0 - v 0 * q 2, v 0 * q 1 - v 1 * q 0]

theorem div_cross (v q : Fin 3 → MvPolynomial (Fin 3) ℝ) : divergence (crossP v q) = ∑ j, curlP v j * q j - ∑ j, v j * curlP q j := by
  unfold divergence crossP curlP
  simp only [Fin.sum_univ_three, Matrix.cons_val_zero, Matrix.cons_val_one, Matrix.cons_val, map_sub, pderiv_mul]
  ring

/-- Binet-Cauchy. -/
theorem normal_cross (vc : Fin 3 → Fin 3 → ℝ) (v q : Fin 3 → MvPolynomial (Fin 3) ℝ) (y : Fin 2 → ℝ) :
    ∑ j, triNormal vc j * eval (entMap vc y) (crossP v q j) = eval y (tangPull vc v 0 * tangPull vc q 1) - eval y (tangPull vc v 1 * tangPull vc q 0) := by
  rw [map_mul, map_mul, eval_tangPull, eval_tangPull, eval_tangPull, eval_tangPull, triNormal_apply]
  unfold crossP
  simp only [Fin.sum_univ_three, Fin.succ_zero_eq_one, Fin.succ_one_eq_two, Matrix.cons_val_zero, Matrix.cons_val_one, Matrix.cons_val, map_sub, map_mul,
    Pi.sub_apply]
  ring

/-- The cell moments of the curl. -/
theorem curl_cell_moments {s : SimplexCell (Fin 3 → ℝ)} (hs : ProperSimplex ℝ s) (ho : 0 < orientation fun i : Fin (3 + 1) => s.v i)
    {k : ℕ} {v : Fin 3 → MvPolynomial (Fin 3) ℝ} (hf : FaceMomentsZero s k v) (hc : CellMomentsZero s (k - 1) v) : CellMomentsZero s k (curlP v) := by
  intro p hp i
  have hi := proper_independent hs
  obtain ⟨g, b, hb⟩ := baryForms_exist _ hi
  let q : Fin 3 → MvPolynomial (Fin 3) ℝ := fun j => if j = i then p else 0
  have hq : ∀ j, (q j).totalDegree < k := by
    intro j
    show (if j = i then p else 0).totalDegree < k
    split_ifs
    · exact hp
    · rw [totalDegree_zero]; omega
  have hfac : ∀ i : Fin 4, ∃ τ : Fin 3 → Fin 4, Function.Injective τ ∧ (∀ r, τ r ≠ i) ∧
      ∫ y in convexHull ℝ (Set.range (ufcVert 2)), ∑ j, g i j * eval (entMap (fun r => s.v (τ r)) y) (crossP v q j) = 0 := by
    intro i
    obtain ⟨e, t, h1, h2⟩ := facet_of_vertex (by omega) hs i
    obtain ⟨τ, t1, t2, rfl, -⟩ := entity_tuple (d := 2) hs h1
    have ha : ∀ r, (⟨τ r, t2 r⟩ : Fin 4) ≠ i := fun r hr => by
      have := (h2 (τ r)).1 ((List.mem_ofFn' τ _).2 ⟨r, rfl⟩)
      exact this.2 (by rw [← hr])
    refine ⟨fun r => ⟨τ r, t2 r⟩, fun a b hab => t1 (by simpa using hab), ha, ?_⟩
    have hperp : ∀ r : Fin 3, ∑ j, g i j * (s.v (τ r) - s.v (τ 0)) j = 0 := by
      intro r
      have a1 := hb.at_vertex i ⟨τ r, t2 r⟩
      have a0 := hb.at_vertex i ⟨τ 0, t2 0⟩
      rw [if_neg (ha r).symm, eval_linForm] at a1
      rw [if_neg (ha 0).symm, eval_linForm] at a0
      simp only [Pi.sub_apply, mul_sub, Finset.sum_sub_distrib]
      linarith
    obtain ⟨c, hcg⟩ := perp_cross (g := g i) (N := triNormal fun r => s.v (τ r)) rfl (triNormal_ne_zero hs t1 t2) (hperp 1) (hperp 2)
    have hz : ∀ a a' : Fin 2, ∫ y in convexHull ℝ (Set.range (ufcVert 2)),
        eval y (tangPull (fun r => s.v (τ r)) v a * tangPull (fun r => s.v (τ r)) q a') = 0 := by
      intro a a'
      have := hf e τ h1 (tangPull (fun r => s.v (τ r)) q a') (by
        have := tangPull_degree (fun r => s.v (τ r)) (w := q) (k := k - 1) (fun j => by have := hq j; omega) a'
        have := hq 0
        omega) a
      rw [ufcVerts_eq] at this
      exact this
    have e1 : ∀ y : Fin 2 → ℝ, ∑ j, g i j * eval (entMap (fun r => s.v (τ r)) y) (crossP v q j) =
        c * (eval y (tangPull (fun r => s.v (τ r)) v 0 * tangPull (fun r => s.v (τ r)) q 1) -
          eval y (tangPull (fun r => s.v (τ r)) v 1 * tangPull (fun r => s.v (τ r)) q 0)) := by
      intro y
      rw [← normal_cross, hcg, Finset.mul_sum]
      exact Finset.sum_congr rfl fun j _ => by rw [Pi.smul_apply, smul_eq_mul, mul_assoc]
    show ∫ y in convexHull ℝ (Set.range (ufcVert 2)), ∑ j, g i j * eval (entMap (fun r => s.v (τ r)) y) (crossP v q j) = 0
    simp only [e1]
    rw [integral_const_mul, integral_sub (hull_integrable _ (continuous_eval _)) (hull_integrable _ (continuous_eval _)), hz, hz, sub_zero, mul_zero]
  choose τ t1 t2 t3 using hfac
  have hdt := divergence_theorem (d := 2) (fun i : Fin 4 => s.v i) ho.ne' hb τ t1 t2 (crossP v q)
  rw [Finset.sum_eq_zero fun i _ => t3 i, mul_zero] at hdt
  have hint : ∀ q : MvPolynomial (Fin 3) ℝ, IntegrableOn (fun x => eval x q) (convexHull ℝ (Set.range fun i : Fin (3 + 1) => s.v i)) :=
    fun q => hull_integrable _ q.continuous_eval
  have hA : ∑ j, curlP v j * q j = curlP v i * p := by
    rw [Finset.sum_eq_single i]
    · show curlP v i * (if i = i then p else 0) = _
      rw [if_pos rfl]
    · intro j _ hj
      show curlP v j * (if j = i then p else 0) = 0
      rw [if_neg hj, mul_zero]
    · simp
  have hB : ∫ x in convexHull ℝ (Set.range fun i : Fin (3 + 1) => s.v i), eval x (∑ j, v j * curlP q j) = 0 := by
    simp only [map_sum]
    rw [integral_finset_sum _ fun j _ => hint _]
    refine Finset.sum_eq_zero fun j _ => ?_
    by_cases hk : k ≤ 1
    · have hq0 : ∀ j l, pderiv l (q j) = 0 := fun j l => by
        have := hq j
        rw [totalDegree_eq_zero_iff_eq_C.1 (show (q j).totalDegree = 0 by omega), pderiv_C]
      have : curlP q j = 0 := by
        unfold curlP
        fin_cases j <;> simp [hq0]
      simp [this]
    · refine hc _ ?_ j
      have := curlP_degree (k := k - 2) (w := q) (fun j => by have := hq j; omega) j
      omega
  rw [div_cross, hA] at hdt
  simp only [map_sub] at hdt
  rw [integral_sub (hint _) (hint _), hB, sub_zero] at hdt
  exact hdt

end
end FIAT
