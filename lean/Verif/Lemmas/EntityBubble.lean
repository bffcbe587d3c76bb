/-
Polynomials on an entity that vanish on its facets.
-/
import Verif.Lemmas.Jets
import Verif.Lemmas.RTDual

namespace FIAT
open MvPolynomial
section
variable {D : ℕ}

theorem entMap_bary {d : ℕ} {g : Fin (d + 1) → Fin d → ℝ} {b : Fin (d + 1) → ℝ} (hb : BaryForms (ufcVerts ℝ d) g b)
    (vc : Fin (d + 1) → Fin D → ℝ) (y : Fin d → ℝ) : entMap vc y = ∑ j, eval y (linForm (g j) (b j)) • vc j := by
  have h1 : ∀ l : Fin d, y l = eval y (linForm (g l.succ) (b l.succ)) := by
    intro l
    have := congrFun (hb.comb y) l
    rw [Finset.sum_apply, Fin.sum_univ_succ] at this
    rw [← this]
    simp only [Pi.smul_apply, smul_eq_mul]
    rw [Finset.sum_eq_single l]
    · simp [ufcVerts]
    · intro i _ hi; simp [ufcVerts, Ne.symm hi]
    · simp
  have h2 : 1 - ∑ l, y l = eval y (linForm (g 0) (b 0)) := by
    rw [← hb.sum_one y, Fin.sum_univ_succ, Finset.sum_congr rfl fun l _ => h1 l]; ring
  rw [entMap_comb, h2, Fin.sum_univ_succ]
  simp only [← h1]

/-- The facets of an entity, through its parametrization. -/
theorem entMap_facet {s : SimplexCell (Fin D → ℝ)} {d : ℕ} {g : Fin (d + 1) → Fin d → ℝ} {b : Fin (d + 1) → ℝ}
    (hb : BaryForms (ufcVerts ℝ d) g b) (τ : Fin (d + 1) → ℕ) (hτ : Function.Injective τ) (i : Fin (d + 1)) (t' : List ℕ) (hn : t'.Nodup)
    (ht' : ∀ a, a ∈ t' ↔ a ∈ List.ofFn τ ∧ a ≠ τ i) (y : Fin d → ℝ) (hy : eval y (linForm (g i) (b i)) = 0) :
    OnEntity s t' (entMap (fun j => s.v (τ j)) y) := by
  have hset : t'.toFinset = (Finset.univ.image τ).erase (τ i) := by
    ext a
    rw [List.mem_toFinset, ht', Finset.mem_erase, Finset.mem_image, List.mem_ofFn]
    simp
    tauto
  have hsum : ∀ {M : Type} [AddCommMonoid M] (f : ℕ → M), f (τ i) = 0 → (t'.map f).sum = ∑ j : Fin (d + 1), f (τ j) := by
    intro M _ f hf
    rw [← List.sum_toFinset _ hn, hset, Finset.sum_erase (f := f) _ hf, Finset.sum_image fun _ _ _ _ h => hτ h]
  refine ⟨Function.extend τ (fun j => eval y (linForm (g j) (b j))) 0, ?_, ?_⟩
  · rw [hsum _ (by rw [hτ.extend_apply, hy])]
    simp only [hτ.extend_apply]
    exact hb.sum_one y
  · rw [hsum _ (by rw [hτ.extend_apply, hy, zero_smul]), entMap_bary hb]
    simp only [hτ.extend_apply]

/-- A polynomial that vanishes on the facets of an entity is, on the entity, a multiple of the product of its barycentric
coordinates. -/
theorem entity_bubble {s : SimplexCell (Fin D → ℝ)} {d : ℕ} (hd : 1 ≤ d) {g : Fin (d + 1) → Fin d → ℝ} {b : Fin (d + 1) → ℝ}
    (hb : BaryForms (ufcVerts ℝ d) g b) (τ : Fin (d + 1) → ℕ) (hτ : Function.Injective τ) (p : MvPolynomial (Fin D) ℝ) (k : ℕ)
    (hk : p.totalDegree ≤ k)
    (hv : ∀ i (t' : List ℕ), t'.Nodup → (∀ a, a ∈ t' ↔ a ∈ List.ofFn τ ∧ a ≠ τ i) → ∀ x, OnEntity s t' x → eval x p = 0) :
    ∃ r : MvPolynomial (Fin d) ℝ, (∀ y, eval (entMap (fun j => s.v (τ j)) y) p = (∏ i, eval y (linForm (g i) (b i))) * eval y r) ∧
      (r = 0 ∨ r.totalDegree + (d + 1) ≤ k) := by
  have hev : ∀ y, eval y (pullback (s.v (τ 0)) (fun j : Fin d => s.v (τ j.succ)) p) = eval (entMap (fun j => s.v (τ j)) y) p := by
    intro y; rw [eval_pullback]; rfl
  obtain ⟨r, h1, h2⟩ := hb.quotient hd 1 Finset.univ (pullback (s.v (τ 0)) (fun j : Fin d => s.v (τ j.succ)) p)
    ((totalDegree_pullback _ _ _).trans hk) (by
      intro i _
      rw [pow_one, linForm_dvd_iff _ _ (hb.ne_zero hd i)]
      intro y hy
      rw [hev]
      have hnd : (List.ofFn τ).Nodup := List.nodup_ofFn.2 hτ
      refine hv i ((List.ofFn τ).filter (· ≠ τ i)) (hnd.filter _) (fun a => by simp) _
        (entMap_facet hb τ hτ i _ (hnd.filter _) (fun a => by simp) y hy))
  refine ⟨r, fun y => ?_, ?_⟩
  · rw [← hev, h1, map_mul, map_prod]
    simp
  · simpa using h2

/-- A subset of the vertices of an entity is an entity. -/
theorem sub_entity {s : SimplexCell (Fin D → ℝ)} (hs : ProperSimplex ℝ s) (t' : List ℕ) (hn : t'.Nodup) (hne : t' ≠ [])
    (hlt : ∀ a ∈ t', a < D + 1) : ∃ e t, HasEntity s.topo (t'.length - 1) e t ∧ ∀ a, a ∈ t ↔ a ∈ t' := by
  obtain ⟨d, e, t, h1, h2⟩ := hs.2.1.all t'.toFinset (by
      rw [List.toFinset_nonempty_iff]; exact hne) (by
    intro a ha
    rw [hs.1, Finset.mem_range]
    exact hlt a (List.mem_toFinset.1 ha))
  have hm : ∀ a, a ∈ t ↔ a ∈ t' := fun a => by rw [← List.mem_toFinset, h2, List.mem_toFinset]
  obtain ⟨a1, a2, -⟩ := hs.2.1.entity _ _ _ h1
  have hc : t.length = t'.length := by
    rw [← List.toFinset_card_of_nodup a1, ← List.toFinset_card_of_nodup hn, h2]
  have : d = t'.length - 1 := by omega
  subst this
  exact ⟨e, t, h1, hm⟩

/-- Lying on an entity does not depend on the order of its vertices. -/
theorem onEntity_congr (s : SimplexCell (Fin D → ℝ)) {t t' : List ℕ} (hn : t.Nodup) (hn' : t'.Nodup) (h : ∀ a, a ∈ t ↔ a ∈ t')
    (x : Fin D → ℝ) : OnEntity s t x ↔ OnEntity s t' x := by
  have hp : t.Perm t' := (List.perm_ext_iff_of_nodup hn hn').2 h
  unfold OnEntity
  refine exists_congr fun c => ?_
  rw [(hp.map c).sum_eq, (hp.map fun a => c a • s.v a).sum_eq]

end
end FIAT
