/-
Tangential traces on the entities of a simplex, pulled back to the reference entity (C23).
-/
import Verif.Lemmas.RTDual
import Verif.Lemmas.CurlZero

namespace FIAT
open MvPolynomial

section
variable {D d : ℕ}

/-- Specification: the tangential component of `w` vanishes on the affine hull of the entity with vertices `t`: its products
with the edge vectors of the entity do. -/
def TangOn (s : SimplexCell (Fin D → ℝ)) (t : List ℕ) (w : Fin D → MvPolynomial (Fin D) ℝ) : Prop :=
  ∀ x, OnEntity s t x → ∀ a ∈ t, ∀ c ∈ t, ∑ j, (s.v a j - s.v c j) * eval x (w j) = 0

theorem onEntity_mono {s : SimplexCell (Fin D → ℝ)} {t t' : List ℕ} (hn : t.Nodup) (hn' : t'.Nodup) (hsub : ∀ a ∈ t', a ∈ t)
    {x : Fin D → ℝ} (h : OnEntity s t' x) : OnEntity s t x := by
  obtain ⟨c, h1, h2⟩ := h
  have hss : t'.toFinset ⊆ t.toFinset := fun a ha => List.mem_toFinset.2 (hsub a (List.mem_toFinset.1 ha))
  refine ⟨fun a => if a ∈ t' then c a else 0, ?_, ?_⟩
  · rw [← List.sum_toFinset _ hn, ← h1, ← List.sum_toFinset _ hn', ← Finset.sum_subset hss]
    · exact Finset.sum_congr rfl fun a ha => if_pos (List.mem_toFinset.1 ha)
    · intro a _ ha
      exact if_neg fun h => ha (List.mem_toFinset.2 h)
  · rw [← List.sum_toFinset _ hn, h2, ← List.sum_toFinset _ hn', ← Finset.sum_subset hss]
    · exact Finset.sum_congr rfl fun a ha => by beta_reduce; rw [if_pos (List.mem_toFinset.1 ha)]
    · intro a _ ha
      beta_reduce
      rw [if_neg fun h => ha (List.mem_toFinset.2 h), zero_smul]

theorem TangOn.mono {s : SimplexCell (Fin D → ℝ)} {t t' : List ℕ} (hn : t.Nodup) (hn' : t'.Nodup) (hsub : ∀ a ∈ t', a ∈ t)
    {w : Fin D → MvPolynomial (Fin D) ℝ} (h : TangOn s t w) : TangOn s t' w :=
  fun x hx a ha c hc => h x (onEntity_mono hn hn' hsub hx) a (hsub a ha) c (hsub c hc)

/-- The tangential field on the reference entity: component `a` is the product with edge vector `a`. -/
noncomputable def tangPull (vc : Fin (d + 1) → Fin D → ℝ) (w : Fin D → MvPolynomial (Fin D) ℝ) : Fin d → MvPolynomial (Fin d) ℝ :=
  fun a => ∑ j, C (vc a.succ j - vc 0 j) * pullback (vc 0) (fun i => vc i.succ) (w j)

theorem eval_pull (vc : Fin (d + 1) → Fin D → ℝ) (p : MvPolynomial (Fin D) ℝ) (y : Fin d → ℝ) :
    eval y (pullback (vc 0) (fun i => vc i.succ) p) = eval (entMap vc y) p := eval_pullback _ _ _ _

theorem eval_tangPull (vc : Fin (d + 1) → Fin D → ℝ) (w : Fin D → MvPolynomial (Fin D) ℝ) (a : Fin d) (y : Fin d → ℝ) :
    eval y (tangPull vc w a) = ∑ j, (vc a.succ j - vc 0 j) * eval (entMap vc y) (w j) := by
  unfold tangPull
  rw [map_sum]
  exact Finset.sum_congr rfl fun j _ => by rw [map_mul, eval_C, eval_pull]

theorem tangPull_degree (vc : Fin (d + 1) → Fin D → ℝ) {w : Fin D → MvPolynomial (Fin D) ℝ} {k : ℕ}
    (hw : ∀ j, (w j).totalDegree ≤ k) (a : Fin d) : (tangPull vc w a).totalDegree ≤ k :=
  sum_degree _ _ _ fun j _ => Cmul_degree _ ((totalDegree_pullback _ _ _).trans (hw j))

/-- The pull-back of a Nedelec field is a Nedelec field. -/
theorem tangPull_ned (vc : Fin (d + 1) → Fin D → ℝ) {w : Fin D → MvPolynomial (Fin D) ℝ} {k : ℕ} (hw : IsNed k w) :
    IsNed k (tangPull vc w) := by
  obtain ⟨p, A, hp, hA, ha, hu⟩ := hw
  have hdeg : ∀ q : MvPolynomial (Fin D) ℝ, q.totalDegree ≤ k → (pullback (vc 0) (fun i : Fin d => vc i.succ) q).totalDegree ≤ k :=
    fun q hq => (totalDegree_pullback _ _ _).trans hq
  refine ⟨fun a => ∑ i, C (vc a.succ i - vc 0 i) * (pullback (vc 0) (fun i => vc i.succ) (p i) +
      ∑ j, C (vc 0 j) * pullback (vc 0) (fun i => vc i.succ) (A i j)),
    fun a c => ∑ i, ∑ j, C ((vc a.succ i - vc 0 i) * (vc c.succ j - vc 0 j)) * pullback (vc 0) (fun i => vc i.succ) (A i j),
    fun a => ?_, fun a c => ?_, fun a c => ?_, fun a => ?_⟩
  · exact sum_degree _ _ _ fun i _ => Cmul_degree _ (pdeg_add (hdeg _ (hp i)) (sum_degree _ _ _ fun j _ => Cmul_degree _ (hdeg _ (hA i j))))
  · exact sum_degree _ _ _ fun i _ => sum_degree _ _ _ fun j _ => Cmul_degree _ (hdeg _ (hA i j))
  · beta_reduce
    rw [Finset.sum_comm, ← Finset.sum_neg_distrib]
    refine Finset.sum_congr rfl fun i _ => ?_
    rw [← Finset.sum_neg_distrib]
    refine Finset.sum_congr rfl fun j _ => ?_
    have : pullback (vc 0) (fun i : Fin d => vc i.succ) (A j i) = - pullback (vc 0) (fun i : Fin d => vc i.succ) (A i j) := by
      rw [ha j i]; exact map_neg _ _
    rw [this, mul_comm (vc a.succ j - vc 0 j)]; ring
  · apply MvPolynomial.funext
    intro y
    rw [eval_tangPull, map_add, map_sum, map_sum]
    simp only [map_mul, map_add, map_sum, eval_C, eval_pull, eval_X, hu]
    have hx : ∀ j, entMap vc y j = vc 0 j + ∑ c, y c * (vc c.succ j - vc 0 j) := by
      intro j
      simp [entMap, Finset.sum_apply]
    have e : ∀ i, ∑ j, eval (entMap vc y) (A i j) * entMap vc y j =
        ∑ j, vc 0 j * eval (entMap vc y) (A i j) + ∑ j, ∑ c, y c * (vc c.succ j - vc 0 j) * eval (entMap vc y) (A i j) := by
      intro i
      rw [← Finset.sum_add_distrib]
      refine Finset.sum_congr rfl fun j _ => ?_
      conv_lhs => rw [hx j]
      rw [mul_add, Finset.mul_sum, mul_comm (vc 0 j)]
      congr 1
      exact Finset.sum_congr rfl fun c _ => by ring
    simp only [e]
    simp only [← add_assoc, mul_add, Finset.sum_add_distrib]
    congr 1
    simp only [Finset.mul_sum, Finset.sum_mul]
    have e3 : ∀ F : Fin D → Fin D → Fin d → ℝ, ∑ i, ∑ j, ∑ c, F i j c = ∑ c, ∑ i, ∑ j, F i j c := by
      intro F
      rw [Finset.sum_comm]
      have : ∀ j, ∑ i, ∑ c, F i j c = ∑ c, ∑ i, F i j c := fun j => Finset.sum_comm
      simp only [this]
      rw [Finset.sum_comm]
      refine Finset.sum_congr rfl fun c _ => Finset.sum_comm
    rw [e3]
    exact Finset.sum_congr rfl fun c _ => Finset.sum_congr rfl fun i _ => Finset.sum_congr rfl fun j _ => by ring

/-- The tangential component vanishes on an entity exactly when the pull-back does. -/
theorem tangOn_iff {s : SimplexCell (Fin D → ℝ)} (τ : Fin (d + 1) → ℕ) (hτ : Function.Injective τ)
    (w : Fin D → MvPolynomial (Fin D) ℝ) : TangOn s (List.ofFn τ) w ↔ tangPull (fun j => s.v (τ j)) w = 0 := by
  constructor
  · intro h
    funext a
    apply MvPolynomial.funext
    intro y
    rw [eval_tangPull, Pi.zero_apply, map_zero]
    exact h _ ((onEntity_iff s τ hτ _).2 ⟨y, rfl⟩) _ (by rw [List.mem_ofFn]; exact ⟨_, rfl⟩) _ (by rw [List.mem_ofFn]; exact ⟨_, rfl⟩)
  · intro h x hx a ha c hc
    rw [onEntity_iff s τ hτ] at hx
    obtain ⟨y, rfl⟩ := hx
    rw [List.mem_ofFn] at ha hc
    obtain ⟨i, rfl⟩ := ha
    obtain ⟨i', rfl⟩ := hc
    have key : ∀ i, ∑ j, (s.v (τ i) j - s.v (τ 0) j) * eval (entMap (fun j => s.v (τ j)) y) (w j) = 0 := by
      intro i
      refine Fin.cases ?_ (fun a => ?_) i
      · simp
      · have := eval_tangPull (fun j => s.v (τ j)) w a y
        rw [h, Pi.zero_apply, map_zero] at this
        exact this.symm
    have h1 := key i
    have h2 := key i'
    rw [← sub_eq_zero.2 (h1.trans h2.symm), ← Finset.sum_sub_distrib]
    exact Finset.sum_congr rfl fun j _ => by ring

/-- The value of the field along the entity in terms of the pull-back. -/
theorem dotC_tangPull (vc : Fin (d + 1) → Fin D → ℝ) (w : Fin D → MvPolynomial (Fin D) ℝ) (a : Fin (d + 1)) (y : Fin d → ℝ) :
    eval y (dotC (ufcVerts ℝ d a) (tangPull vc w)) = ∑ j, (vc a j - vc 0 j) * eval (entMap vc y) (w j) := by
  rw [eval_dotC]
  refine Fin.cases ?_ (fun i => ?_) a
  · simp [ufcVerts]
  · rw [Finset.sum_eq_single i]
    · rw [eval_tangPull]
      have : ufcVerts ℝ d i.succ i = 1 := by simp [ufcVerts]
      rw [this, one_mul]
    · intro b _ hb
      have : ufcVerts ℝ d i.succ b = 0 := by
        change (if b = _ then (1 : ℝ) else 0) = 0
        rw [if_neg]
        simpa using hb
      rw [this, zero_mul]
    · simp

/-- When the tangential component vanishes on the lower entities of an entity, the pull-back has zero tangential trace. -/
theorem tangZero_pull (hd : 2 ≤ d) {s : SimplexCell (Fin D → ℝ)} (hs : ProperSimplex ℝ s) (τ : Fin (d + 1) → ℕ)
    (hτ : Function.Injective τ) (hlt : ∀ j, τ j < D + 1) {w : Fin D → MvPolynomial (Fin D) ℝ}
    (h : ∀ d' e' t', HasEntity s.topo d' e' t' → 1 ≤ d' → d' < d → (∀ a ∈ t', a ∈ List.ofFn τ) → TangOn s t' w)
    {g : Fin (d + 1) → Fin d → ℝ} {b : Fin (d + 1) → ℝ} (hb : BaryForms (ufcVerts ℝ d) g b) :
    TangZero (ufcVerts ℝ d) g b (tangPull (fun j => s.v (τ j)) w) := by
  intro a a' c hca hca' y hy
  rw [dotC_tangPull, dotC_tangPull, ← sub_eq_zero, ← Finset.sum_sub_distrib]
  have hS : ((Finset.univ.erase c).image τ).card = d := by
    rw [Finset.card_image_of_injective _ hτ, Finset.card_erase_of_mem (Finset.mem_univ c), Finset.card_univ, Fintype.card_fin]
    omega
  obtain ⟨d', e', t', h1, h2⟩ := hs.2.1.all ((Finset.univ.erase c).image τ) (by rw [← Finset.card_pos, hS]; omega) (by
    intro x hx
    obtain ⟨j, -, rfl⟩ := Finset.mem_image.1 hx
    rw [hs.1, Finset.mem_range]; exact hlt j)
  obtain ⟨n1, n2, -⟩ := hs.2.1.entity _ _ _ h1
  have hd' : d' + 1 = d := by
    have := List.toFinset_card_of_nodup n1
    rw [h2, hS, n2] at this
    omega
  have hmem : ∀ i, i ∈ t' ↔ ∃ j, j ≠ c ∧ τ j = i := by
    intro i
    rw [← List.mem_toFinset, h2, Finset.mem_image]
    simp
  have ht := h d' e' t' h1 (by omega) (by omega) (fun i hi => by
    obtain ⟨j, -, rfl⟩ := (hmem i).1 hi
    rw [List.mem_ofFn]; exact ⟨j, rfl⟩)
  have hx : OnEntity s t' (entMap (fun j => s.v (τ j)) y) := by
    have hcomb : entMap (fun j => s.v (τ j)) y = ∑ i, eval y (linForm (g i) (b i)) • s.v (τ i) := by
      have hy2 := hb.comb y
      have hb0 := hb.sum_one y
      rw [entMap_comb, Fin.sum_univ_succ]
      have hc2 : ∀ j : Fin d, y j = eval y (linForm (g j.succ) (b j.succ)) := by
        intro j
        have := congrFun hy2 j
        rw [Finset.sum_apply, Fin.sum_univ_succ] at this
        conv_lhs => rw [← this]
        rw [Finset.sum_eq_single j]
        · simp [ufcVerts]
        · intro l _ hl
          have : ufcVerts ℝ d l.succ j = 0 := by
            change (if j = _ then (1 : ℝ) else 0) = 0
            rw [if_neg]
            simpa using hl.symm
          simp [this]
        · simp
      rw [Fin.sum_univ_succ] at hb0
      congr 1
      · congr 1
        rw [Finset.sum_congr rfl fun j _ => hc2 j]
        linarith
      · exact Finset.sum_congr rfl fun j _ => by rw [← hc2]
    have hinv : ∀ i, Function.invFun τ (τ i) = i := Function.leftInverse_invFun hτ
    refine ⟨fun i => eval y (linForm (g (Function.invFun τ i)) (b (Function.invFun τ i))), ?_, ?_⟩
    · rw [← List.sum_toFinset _ n1, h2, Finset.sum_image (fun i _ j _ hij => hτ hij)]
      simp only [hinv]
      rw [Finset.sum_erase (f := fun i => eval y (linForm (g i) (b i))) _ hy, hb.sum_one]
    · rw [← List.sum_toFinset _ n1, h2, Finset.sum_image (fun i _ j _ hij => hτ hij), hcomb]
      simp only [hinv]
      rw [Finset.sum_erase]
      rw [hy, zero_smul]
  have := ht _ hx (τ a) ((hmem _).2 ⟨a, hca.symm, rfl⟩) (τ a') ((hmem _).2 ⟨a', hca'.symm, rfl⟩)
  rw [← this]
  exact Finset.sum_congr rfl fun j _ => by ring

/-- The same on the cell. -/
theorem tangZero_cell (hD : 1 ≤ D) {s : SimplexCell (Fin D → ℝ)} (hs : ProperSimplex ℝ s) {w : Fin D → MvPolynomial (Fin D) ℝ}
    (h : ∀ e t, HasEntity s.topo (D - 1) e t → TangOn s t w) {g : Fin (D + 1) → Fin D → ℝ} {b : Fin (D + 1) → ℝ}
    (hb : BaryForms (fun i : Fin (D + 1) => s.v i) g b) : TangZero (fun i : Fin (D + 1) => s.v i) g b w := by
  intro a a' c hca hca' x hx
  obtain ⟨e, t, h1, h2⟩ := facet_of_vertex hD hs c
  have h3 := h e t h1 x ((onEntity_facet hb (hs.2.1.entity _ _ _ h1).1 h2 x).2 hx) a ((h2 a).2 ⟨a.2, fun h => hca (Fin.ext h).symm⟩)
    a' ((h2 a').2 ⟨a'.2, fun h => hca' (Fin.ext h).symm⟩)
  rw [eval_dotC, eval_dotC, ← sub_eq_zero, ← h3, ← Finset.sum_sub_distrib]
  exact Finset.sum_congr rfl fun j _ => by ring

end
end FIAT
