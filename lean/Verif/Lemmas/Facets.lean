/-
Barycentric coordinates as linear forms, facet normals, and points and rules on the entities of a simplex (C23).
-/
import Verif.Lemmas.RTCore
import Verif.Lemmas.VecModel
import Verif.Props.Lagrange
import Verif.Props.Affine
import Verif.Lemmas.PosInt
import Verif.Props.FunctionalClasses

namespace FIAT
open MvPolynomial
section bary
variable {D : ℕ}

/-- Specification: `b i + g i · x` are the barycentric coordinates with respect to the points `v`. -/
structure BaryForms (v : Fin (D + 1) → Fin D → ℝ) (g : Fin (D + 1) → Fin D → ℝ) (b : Fin (D + 1) → ℝ) : Prop where
  sum_one : ∀ x, ∑ i, eval x (linForm (g i) (b i)) = 1
  comb : ∀ x, ∑ i, eval x (linForm (g i) (b i)) • v i = x
  unique : ∀ w : Fin (D + 1) → ℝ, ∑ i, w i = 1 → ∀ i, eval (∑ j, w j • v j) (linForm (g i) (b i)) = w i

/-- `w ↦ (∑ w_i v_i, ∑ w_i)`. -/
private noncomputable def combMap (v : Fin (D + 1) → Fin D → ℝ) : (Fin (D + 1) → ℝ) →ₗ[ℝ] (Fin D → ℝ) × ℝ where
  toFun w := (∑ i, w i • v i, ∑ i, w i)
  map_add' a b := by simp [add_smul, Finset.sum_add_distrib]
  map_smul' c a := by simp [Finset.smul_sum, Finset.mul_sum, mul_smul]

theorem baryForms_exist (v : Fin (D + 1) → Fin D → ℝ) (hv : AffineIndependent ℝ v) : ∃ g b, BaryForms v g b := by
  have hinj : Function.Injective (combMap v) := by
    rw [← LinearMap.ker_eq_bot, LinearMap.ker_eq_bot']
    intro w hw
    rw [affineIndependent_iff] at hv
    have h1 : ∑ i, w i • v i = 0 := congrArg Prod.fst hw
    have h2 : ∑ i, w i = 0 := congrArg Prod.snd hw
    funext i
    exact hv Finset.univ w h2 h1 i (Finset.mem_univ i)
  have hfr : Module.finrank ℝ (Fin (D + 1) → ℝ) = Module.finrank ℝ ((Fin D → ℝ) × ℝ) := by simp
  let e := LinearEquiv.ofInjectiveOfFinrankEq (combMap v) hinj hfr
  have he : ∀ w, e w = (∑ i, w i • v i, ∑ i, w i) := fun w => rfl
  have hL : ∀ x i, eval x (linForm (fun j => e.symm (Pi.single j 1, 0) i) (e.symm (0, 1) i)) = e.symm (x, 1) i := by
    intro x i
    rw [eval_linForm]
    have hx : ((x, 1) : (Fin D → ℝ) × ℝ) = (0, 1) + ∑ j, x j • ((Pi.single j 1 : Fin D → ℝ), (0 : ℝ)) := by
      refine Prod.ext ?_ ?_
      · rw [Prod.fst_add, Prod.fst_sum, zero_add]
        simp only [Prod.smul_mk]
        funext l
        simp [Finset.sum_apply, Pi.single_apply]
      · rw [Prod.snd_add, Prod.snd_sum]; simp
    rw [hx, map_add, map_sum, Pi.add_apply, Finset.sum_apply]
    congr 1
    exact Finset.sum_congr rfl fun j _ => by rw [map_smul, Pi.smul_apply, smul_eq_mul, mul_comm]
  refine ⟨fun i j => e.symm (Pi.single j 1, 0) i, fun i => e.symm (0, 1) i, ?_, ?_, ?_⟩
  · intro x
    simp only [hL]
    have := congrArg Prod.snd (e.apply_symm_apply (x, 1))
    rwa [he] at this
  · intro x
    simp only [hL]
    have := congrArg Prod.fst (e.apply_symm_apply (x, 1))
    rwa [he] at this
  · intro w hw i
    rw [hL, ← hw]
    have : e.symm (∑ j, w j • v j, ∑ i, w i) = w := by rw [← he, e.symm_apply_apply]
    rw [this]

namespace BaryForms
variable {v : Fin (D + 1) → Fin D → ℝ} {g : Fin (D + 1) → Fin D → ℝ} {b : Fin (D + 1) → ℝ}

theorem sum_poly (h : BaryForms v g b) : ∑ i, linForm (g i) (b i) = 1 := by
  apply MvPolynomial.funext
  intro x
  rw [map_sum, h.sum_one, map_one]

theorem at_vertex (h : BaryForms v g b) (i j : Fin (D + 1)) : eval (v j) (linForm (g i) (b i)) = if i = j then 1 else 0 := by
  have := h.unique (fun k => if k = j then 1 else 0) (by simp) i
  simpa using this

theorem ne_zero (h : BaryForms v g b) (hD : 1 ≤ D) (i : Fin (D + 1)) : g i ≠ 0 := by
  intro hg
  obtain ⟨j, hj⟩ : ∃ j : Fin (D + 1), j ≠ i := by
    haveI : Nontrivial (Fin (D + 1)) := Fin.nontrivial_iff_two_le.2 (by omega)
    exact exists_ne i
  have h1 := h.at_vertex i i
  have h2 := h.at_vertex i j
  rw [if_pos rfl, eval_linForm, hg] at h1
  rw [if_neg hj.symm, eval_linForm, hg] at h2
  simp only [Pi.zero_apply, zero_mul, Finset.sum_const_zero, add_zero] at h1 h2
  linarith

/-- Every vector is the combination of the vertices with weights `g i · u`. -/
theorem vector (h : BaryForms v g b) (u : Fin D → ℝ) : ∑ i, (∑ j, g i j * u j) • v i = u := by
  have h1 := h.comb u
  have h0 := h.comb 0
  simp only [eval_linForm, add_smul, Finset.sum_add_distrib, Pi.zero_apply, mul_zero, Finset.sum_const_zero, zero_smul,
    add_zero] at h1 h0
  rw [h0, zero_add] at h1
  exact h1

theorem all_zero (h : BaryForms v g b) (w : Fin D → MvPolynomial (Fin D) ℝ) (hw : ∀ i, dotC (g i) w = 0) : w = 0 := by
  funext j
  apply MvPolynomial.funext
  intro x
  have h1 := congrFun (h.vector fun j => eval x (w j)) j
  have h2 : ∀ i, ∑ j, g i j * eval x (w j) = 0 := by
    intro i
    have := congrArg (eval x) (hw i)
    rw [dotC, map_sum, map_zero] at this
    simpa only [map_mul, eval_C] using this
  simp only [h2, zero_smul, Finset.sum_const_zero] at h1
  rw [Pi.zero_apply, map_zero, ← h1]; rfl

theorem nonneg (h : BaryForms v g b) (i : Fin (D + 1)) (x : Fin D → ℝ) (hx : x ∈ convexHull ℝ (Set.range v)) :
    0 ≤ eval x (linForm (g i) (b i)) := by
  have hsub : convexHull ℝ (Set.range v) ⊆ {x | 0 ≤ eval x (linForm (g i) (b i))} := by
    apply convexHull_min
    · rintro _ ⟨j, rfl⟩
      rw [Set.mem_setOf_eq, h.at_vertex]
      split_ifs <;> norm_num
    · intro x hx y hy a c ha hc hac
      rw [Set.mem_setOf_eq] at hx hy ⊢
      have e : eval (a • x + c • y) (linForm (g i) (b i)) = a * eval x (linForm (g i) (b i)) +
          c * eval y (linForm (g i) (b i)) := by
        simp only [eval_linForm, Pi.add_apply, Pi.smul_apply, smul_eq_mul, mul_add, Finset.sum_add_distrib, Finset.mul_sum]
        have e1 : ∀ j, g i j * (a * x j) = a * (g i j * x j) := fun j => by ring
        have e2 : ∀ j, g i j * (c * y j) = c * (g i j * y j) := fun j => by ring
        simp only [e1, e2]
        linear_combination -(b i) * hac
      rw [e]
      exact add_nonneg (mul_nonneg ha hx) (mul_nonneg hc hy)
  exact hsub hx

/-- A normal of the facet opposite to vertex `i` is a multiple of the gradient of the barycentric coordinate `i`. -/
theorem normal (h : BaryForms v g b) (hD : 1 ≤ D) (i : Fin (D + 1)) (n : Fin D → ℝ)
    (hn : ∀ a c, a ≠ i → c ≠ i → ∑ j, n j * (v a j - v c j) = 0) : ∃ c : ℝ, n = c • g i := by
  obtain ⟨a, ha⟩ : ∃ j : Fin (D + 1), j ≠ i := by
    haveI : Nontrivial (Fin (D + 1)) := Fin.nontrivial_iff_two_le.2 (by omega)
    exact exists_ne i
  have hlin : ∀ u : Fin D → ℝ, ∑ j, n j * u j = ∑ l, (∑ j, g l j * u j) * ∑ j, n j * v l j := by
    intro u
    have h1 := h.vector u
    have : ∑ j, n j * u j = ∑ j, n j * (∑ i, (∑ j, g i j * u j) • v i) j := by rw [h1]
    rw [this]
    simp only [Finset.sum_apply, Pi.smul_apply, smul_eq_mul, Finset.mul_sum]
    rw [Finset.sum_comm]
    refine Finset.sum_congr rfl fun l _ => Finset.sum_congr rfl fun j _ => ?_
    ring
  have hg0 : ∀ u : Fin D → ℝ, ∑ l, ∑ j, g l j * u j = 0 := by
    intro u
    have h1 := h.sum_one u
    have h0 := h.sum_one 0
    simp only [eval_linForm, Finset.sum_add_distrib, Pi.zero_apply, mul_zero, Finset.sum_const_zero, add_zero] at h1 h0
    linarith
  refine ⟨∑ j, n j * v i j - ∑ j, n j * v a j, ?_⟩
  funext l
  have h1 := hlin (Pi.single l 1)
  have h2 := hg0 (Pi.single l 1)
  simp only [Pi.single_apply, mul_ite, mul_one, mul_zero, Finset.sum_ite_eq', Finset.mem_univ, if_true] at h1 h2
  rw [Pi.smul_apply, smul_eq_mul]
  have hsame : ∀ c, c ≠ i → ∑ j, n j * v c j = ∑ j, n j * v a j := by
    intro c hc
    have := hn c a hc ha
    simp only [mul_sub, Finset.sum_sub_distrib] at this
    linarith
  have h3 : ∑ k, g k l * ∑ j, n j * v k j = ∑ k, g k l * (∑ j, n j * v a j) + g i l * (∑ j, n j * v i j - ∑ j, n j * v a j) := by
    have e : ∑ k ∈ Finset.univ.erase i, g k l * ∑ j, n j * v k j = ∑ k ∈ Finset.univ.erase i, g k l * (∑ j, n j * v a j) :=
      Finset.sum_congr rfl fun k hk => by rw [hsame k (Finset.ne_of_mem_erase hk)]
    rw [← Finset.add_sum_erase _ _ (Finset.mem_univ i),
      ← Finset.add_sum_erase _ (fun k => g k l * (∑ j, n j * v a j)) (Finset.mem_univ i), e]
    ring
  rw [h1, h3, ← Finset.sum_mul, h2]
  ring

end BaryForms
end bary

section entity
variable {D : ℕ}

/-- Specification: `x` lies on (the affine hull of) the entity with vertex numbers `t`. -/
def OnEntity (s : SimplexCell (Fin D → ℝ)) (t : List ℕ) (x : Fin D → ℝ) : Prop :=
  ∃ c : ℕ → ℝ, (t.map c).sum = 1 ∧ x = (t.map fun a => c a • s.v a).sum

/-- The affine map from the reference entity. -/
noncomputable def entMap {d : ℕ} (vc : Fin (d + 1) → Fin D → ℝ) (y : Fin d → ℝ) : Fin D → ℝ :=
  vc 0 + ∑ j, y j • (vc j.succ - vc 0)

theorem entMap_eq {d : ℕ} (vc : Fin (d + 1) → Fin D → ℝ) (y : Fin d → ℝ) :
    entMap vc y = entityTransform (ufcVerts ℝ d) vc y := by
  rw [entityTransform_formula]
  funext l
  simp [entMap]

theorem entMap_comb {d : ℕ} (vc : Fin (d + 1) → Fin D → ℝ) (y : Fin d → ℝ) :
    entMap vc y = (1 - ∑ j, y j) • vc 0 + ∑ j : Fin d, y j • vc j.succ := by
  unfold entMap
  simp only [smul_sub, Finset.sum_sub_distrib, sub_smul, one_smul, Finset.sum_smul]
  abel

theorem onEntity_iff {d : ℕ} (s : SimplexCell (Fin D → ℝ)) (τ : Fin (d + 1) → ℕ) (hτ : Function.Injective τ) (x : Fin D → ℝ) :
    OnEntity s (List.ofFn τ) x ↔ ∃ y, x = entMap (fun j => s.v (τ j)) y := by
  unfold OnEntity
  simp only [List.map_ofFn, List.sum_ofFn, Function.comp_apply, entMap_comb]
  constructor
  · rintro ⟨c, h1, rfl⟩
    refine ⟨fun j => c (τ j.succ), ?_⟩
    rw [Fin.sum_univ_succ] at h1 ⊢
    rw [← h1]; simp
  · rintro ⟨y, rfl⟩
    refine ⟨Function.extend τ (Fin.cons (1 - ∑ j, y j) y) 0, ?_, ?_⟩
    · rw [Fin.sum_univ_succ]
      simp only [hτ.extend_apply, Fin.cons_zero, Fin.cons_succ]
      ring
    · rw [Fin.sum_univ_succ]
      simp only [hτ.extend_apply, Fin.cons_zero, Fin.cons_succ]

theorem entity_tuple {s : SimplexCell (Fin D → ℝ)} (hs : ProperSimplex ℝ s) {d e : ℕ} {t : List ℕ}
    (h : HasEntity s.topo d e t) :
    ∃ τ : Fin (d + 1) → ℕ, Function.Injective τ ∧ (∀ j, τ j < D + 1) ∧ t = List.ofFn τ ∧
      entityVerts s d e = some (List.ofFn fun j => s.v (τ j)) := by
  obtain ⟨h1, h2, h3⟩ := hs.2.1.entity d e t h
  rw [hs.1] at h3
  refine ⟨fun j => t.get (j.cast h2.symm), ?_, fun j => h3 _ (List.get_mem ..), ?_, ?_⟩
  · intro a b hab
    have := (List.nodup_iff_injective_get.1 h1) hab
    simpa using this
  · apply List.ext_get
    · simp only [List.length_ofFn, List.length_map, h2]
    · intro n a b; simp only [List.get_eq_getElem, List.getElem_ofFn, List.getElem_map, Fin.val_cast]
  · obtain ⟨es, a, b⟩ := h
    have hl := hs.2.1.nverts
    rw [hs.1] at hl
    unfold entityVerts verticesOf
    rw [a, Option.bind_some, b, Option.bind_some]
    rw [mapM_some_map t _ s.v (fun x hx => by
      have := h3 x hx
      rw [SimplexCell.v, List.getElem?_eq_getElem (by omega)]; rfl)]
    congr 1
    apply List.ext_get
    · simp only [List.length_ofFn, List.length_map, h2]
    · intro n a b; simp only [List.get_eq_getElem, List.getElem_ofFn, List.getElem_map, Fin.val_cast]

/-- The vertices of an entity are affinely independent, so its parametrization is injective. -/
theorem entMap_injective {s : SimplexCell (Fin D → ℝ)} (hs : ProperSimplex ℝ s) {d : ℕ} (τ : Fin (d + 1) → ℕ)
    (hτ : Function.Injective τ) (hlt : ∀ j, τ j < D + 1) : Function.Injective (entMap fun j => s.v (τ j)) := by
  have hnd := hs.2.2.1
  unfold Nondegenerate at hnd
  rw [hs.1] at hnd
  have hsub : AffineIndependent ℝ fun j : Fin (d + 1) => s.v (τ j) := by
    have := hnd.comp_embedding ⟨fun j : Fin (d + 1) => (⟨τ j, hlt j⟩ : Fin (D + 1)), fun a b hab => hτ (by simpa using hab)⟩
    exact this
  rw [affineIndependent_iff] at hsub
  intro y z hyz
  rw [entMap_comb, entMap_comb] at hyz
  have h1 := hsub Finset.univ (Fin.cons ((1 - ∑ j, y j) - (1 - ∑ j, z j)) fun j => y j - z j) (by
    rw [Fin.sum_univ_succ]; simp [Finset.sum_sub_distrib]) (by
    rw [Fin.sum_univ_succ]
    simp only [Fin.cons_zero, Fin.cons_succ, sub_smul, Finset.sum_sub_distrib] at hyz ⊢
    rw [← sub_eq_zero] at hyz
    rw [← hyz]; abel)
  funext j
  have := h1 j.succ (Finset.mem_univ _)
  simp only [Fin.cons_succ] at this
  linarith

/-- Points on an entity. -/
theorem entity_points {s : SimplexCell (Fin D → ℝ)} (hs : ProperSimplex ℝ s) {d e : ℕ} {t : List ℕ} (hd : 1 ≤ d) (hdD : d < D)
    (h : HasEntity s.topo d e t) (k : ℕ) :
    ∃ pts, makePoints ℝ s d e (k + d + 1) = some pts ∧ pts.length = (k + d).choose d ∧ (∀ x ∈ pts, OnEntity s t x) ∧
      ∀ p : MvPolynomial (Fin D) ℝ, p.totalDegree ≤ k → (∀ x ∈ pts, eval x p = 0) → ∀ x, OnEntity s t x → eval x p = 0 := by
  obtain ⟨τ, t1, t2, t3, t4⟩ := entity_tuple hs h
  have hmp : makePoints ℝ s d e (k + d + 1) =
      some (makeLattice ℝ (s.v (τ 0)) (List.ofFn fun j : Fin d => s.v (τ j.succ)) (k + d + 1) 1) := by
    unfold makePoints
    rw [if_neg (by omega), if_pos (by rw [hs.1]; exact hdD)]
    unfold entityVerts at t4
    simp only [Option.bind_eq_bind]
    rw [Option.bind_eq_some_iff] at t4
    obtain ⟨es, a1, a2⟩ := t4
    rw [Option.bind_eq_some_iff] at a2
    obtain ⟨t', a2, a3⟩ := a2
    rw [a1, Option.bind_some, a2, Option.bind_some, a3, Option.bind_some, List.ofFn_succ]
    rfl
  obtain ⟨pts', b1, b2⟩ := make_points_mem (K := ℝ) s hs.2.1 (k + d + 1) (by omega) h
  refine ⟨_, hmp, ?_, ?_, ?_⟩
  · rw [makeLattice, List.length_map, List.length_map, lattice_indices_length _ _ _ (by simp; omega), List.length_ofFn,
      if_pos (by omega)]
    congr 1; omega
  · rw [hmp, Option.some.injEq] at b1
    intro x hx
    rw [b1, b2] at hx
    obtain ⟨β, c1, c2, rfl⟩ := hx
    have hk : ((k + d + 1 : ℕ) : ℝ) ≠ 0 := by positivity
    obtain ⟨n1, n2, n3⟩ := hs.2.1.entity d e t h
    have hsub : t.toFinset ⊆ Finset.range (s.sd + 1) := fun a ha => Finset.mem_range.2 (n3 a (List.mem_toFinset.1 ha))
    refine ⟨fun a => (β a : ℝ) / (k + d + 1 : ℕ), ?_, ?_⟩
    · rw [← List.sum_toFinset _ n1, Finset.sum_subset hsub]
      · rw [← Finset.sum_div, ← Nat.cast_sum, c2, div_self hk]
      · intro a _ ha
        have : β a = 0 := by
          by_contra hb
          exact ha (List.mem_toFinset.2 ((c1 a).1 hb))
        simp [this]
    · rw [← List.sum_toFinset _ n1, Finset.sum_subset hsub]
      · rfl
      · intro a _ ha
        have : β a = 0 := by
          by_contra hb
          exact ha (List.mem_toFinset.2 ((c1 a).1 hb))
        simp [this]
  · intro p hp hz x hx
    rw [t3, onEntity_iff s τ t1] at hx
    obtain ⟨y, rfl⟩ := hx
    have := lattice_vanish (s.v (τ 0)) (List.ofFn fun j : Fin d => s.v (τ j.succ)) (by
      intro h; rw [← List.length_eq_zero_iff, List.length_ofFn] at h; omega) (k + d + 1) 1 k (by omega)
      (by rw [List.length_ofFn]; omega) p hp hz (fun i => y (i.cast (List.length_ofFn ..)))
    have e : entMap (fun j => s.v (τ j)) y = s.v (τ 0) + ∑ i : Fin (List.ofFn fun j : Fin d => s.v (τ j.succ)).length,
        y (i.cast (List.length_ofFn ..)) • ((List.ofFn fun j : Fin d => s.v (τ j.succ)).get i - s.v (τ 0)) := by
      unfold entMap
      congr 1
      refine Fintype.sum_equiv (finCongr (List.length_ofFn (f := fun j : Fin d => s.v (τ j.succ))).symm)
        (fun j : Fin d => y j • (s.v (τ j.succ) - s.v (τ 0))) _ fun j => ?_
      simp
    rw [e]; exact this

/-- A polynomial of degree at most `k` whose moments against `P_k` vanish is zero. -/
theorem moments_zero {d m k : ℕ} (v : Fin (d + 1) → Fin d → ℝ) (hv : AffineIndependent ℝ v)
    (φ : Fin m → MvPolynomial (Fin d) ℝ) (hspan : Submodule.span ℝ (Set.range φ) = restrictTotalDegree (Fin d) ℝ k)
    (p : MvPolynomial (Fin d) ℝ) (hp : p.totalDegree ≤ k)
    (h : ∀ i, ∫ x in convexHull ℝ (Set.range v), eval x (φ i * p) = 0) : p = 0 := by
  have hm : p ∈ Submodule.span ℝ (Set.range φ) := by rw [hspan, mem_restrictTotalDegree]; exact hp
  obtain ⟨c, hc⟩ := (Submodule.mem_span_range_iff_exists_fun ℝ).1 hm
  have hint : ∀ P : MvPolynomial (Fin d) ℝ, MeasureTheory.IntegrableOn (fun x => eval x P) (convexHull ℝ (Set.range v)) :=
    fun P => integrable_hull v _ P.continuous_eval
  have hpp : ∫ x in convexHull ℝ (Set.range v), eval x (p * p) = 0 := by
    have e : ∀ x, eval x (p * p) = ∑ i, c i * eval x (φ i * p) := by
      intro x
      have e1 : eval x p = ∑ i, c i * eval x (φ i) := by
        rw [← hc, map_sum]
        exact Finset.sum_congr rfl fun i _ => by rw [smul_eval]
      rw [map_mul]
      conv_lhs => lhs; rw [e1]
      rw [Finset.sum_mul]
      refine Finset.sum_congr rfl fun i _ => ?_
      rw [map_mul]; ring
    simp only [e]
    rw [MeasureTheory.integral_finsetSum _ fun i _ => (hint _).const_mul _]
    refine Finset.sum_eq_zero fun i _ => ?_
    rw [MeasureTheory.integral_const_mul, h i, mul_zero]
  have := poly_zero_of_integral v hv (p * p) (fun x _ => by rw [map_mul]; exact mul_self_nonneg _) hpp
  exact mul_self_eq_zero.1 this

theorem quadSum_zip_map {P P' : Type} (E : P → P') (pts : List P) (wts : List ℝ) (phi : ℕ → ℝ) (f : P' → ℝ) :
    quadSum (zipRule (pts.map E) wts phi) f = quadSum (zipRule pts wts phi) fun y => f (E y) := by
  unfold quadSum zipRule
  have e : (pts.map E).zip wts = (pts.zip wts).map fun q => (E q.1, q.2) := by
    rw [List.zip_map_left]; rfl
  rw [e, List.zipIdx_map]
  simp only [List.map_map, Function.comp_def]
  rfl

theorem quadSum_zip {P : Type} (pts : List P) (wts : List ℝ) (hl : wts.length = pts.length) (phi : ℕ → ℝ) (g f : P → ℝ)
    (h : ∀ (j : ℕ) x, pts[j]? = some x → phi j = g x) :
    quadSum (zipRule pts wts phi) f = (⟨pts, wts⟩ : QRule ℝ P).integrate fun x => g x * f x := by
  unfold quadSum zipRule
  rw [List.map_map]
  refine sum_zip_values pts wts hl (fun x => g x * f x) (fun x w j => w * (phi j * f x)) ?_
  intro j x w hx
  rw [h j x hx]

theorem zipRule_points {P : Type} (pts : List P) (wts : List ℝ) (hl : wts.length = pts.length) (phi : ℕ → ℝ) :
    (zipRule pts wts phi).map (fun q => q.1) = pts := by
  unfold zipRule
  rw [List.map_map]
  have : ((pts.zip wts).zipIdx.map fun q => q.1.1) = pts := by
    have e : ((pts.zip wts).zipIdx.map fun q => q.1.1) = ((pts.zip wts).zipIdx.map Prod.fst).map Prod.fst := by
      rw [List.map_map]; rfl
    rw [e, List.zipIdx_map_fst, List.map_fst_zip (by omega)]
  exact this

/-- Moments on an entity: `φ` are the functions whose values `T` multiply the weights. -/
theorem entity_moments {s : SimplexCell (Fin D → ℝ)} (hs : ProperSimplex ℝ s) {d e : ℕ} {t : List ℕ}
    (h : HasEntity s.topo d e t) (Q : QRule ℝ (Fin d → ℝ)) {N : ℕ} (hQ : GoodRule Q (ufcVerts ℝ d) N)
    (hl : Q.wts.length = Q.pts.length) (hnd : Q.pts.Nodup) :
    ∃ pts, mapToEntity s d e Q.pts = some pts ∧ pts.Nodup ∧ pts.length = Q.pts.length ∧ (∀ x ∈ pts, OnEntity s t x) ∧
      ∀ (m k : ℕ) (φ : Fin m → MvPolynomial (Fin d) ℝ) (T : Fin m → ℕ → ℝ), 2 * k ≤ N →
        Submodule.span ℝ (Set.range φ) = restrictTotalDegree (Fin d) ℝ k →
        (∀ i (j : ℕ) x, Q.pts[j]? = some x → T i j = eval x (φ i)) →
        ∀ p : MvPolynomial (Fin D) ℝ, p.totalDegree ≤ k → (∀ i, quadSum (zipRule pts Q.wts (T i)) (fun x => eval x p) = 0) →
          ∀ x, OnEntity s t x → eval x p = 0 := by
  obtain ⟨τ, t1, t2, t3, t4⟩ := entity_tuple hs h
  have hme : mapToEntity s d e Q.pts = some (Q.pts.map (entMap fun j => s.v (τ j))) := by
    unfold mapToEntity
    rw [t4, Option.bind_some, dif_pos (List.length_ofFn ..)]
    congr 1
    refine List.map_congr_left fun y _ => ?_
    rw [entMap_eq]
    congr 1
    funext j
    rw [List.get_ofFn]
    rfl
  refine ⟨_, hme, hnd.map (entMap_injective hs τ t1 t2), by simp, ?_, ?_⟩
  · intro x hx
    obtain ⟨y, -, rfl⟩ := List.mem_map.1 hx
    rw [t3, onEntity_iff s τ t1]
    exact ⟨y, rfl⟩
  · intro m k φ T hN hspan hT p hp hz x hx
    rw [t3, onEntity_iff s τ t1] at hx
    obtain ⟨y, rfl⟩ := hx
    have hpb : ∀ y, eval y (pullback (s.v (τ 0)) (fun j : Fin d => s.v (τ j.succ)) p) = eval (entMap (fun j => s.v (τ j)) y) p :=
      fun y => eval_pullback _ _ _ _
    have hpd : (pullback (s.v (τ 0)) (fun j : Fin d => s.v (τ j.succ)) p).totalDegree ≤ k :=
      (totalDegree_pullback _ _ _).trans hp
    have hφ : ∀ i, (φ i).totalDegree ≤ k := by
      intro i
      rw [← mem_restrictTotalDegree, ← hspan]
      exact Submodule.subset_span ⟨i, rfl⟩
    have := moments_zero (ufcVerts ℝ d) (ufcVerts_affineIndependent d) φ hspan _ hpd (fun i => by
      rw [← hQ.1 _ ((totalDegree_mul _ _).trans (by have := hφ i; omega))]
      have h1 := hz i
      rw [quadSum_zip_map, quadSum_zip Q.pts Q.wts hl _ (fun x => eval x (φ i)) _ (hT i)] at h1
      rw [← h1]
      congr 1
      funext y
      rw [map_mul, hpb])
    rw [← hpb, this, map_zero]

end entity
end FIAT
