/-
C66: the unit, scaled and reference normals of the facets of a simplex, and the volumes of simplices, computed by
`Simplex.compute_normal`, `compute_scaled_normal`, `compute_reference_normal` and `volume`.
-/
import Verif.Lemmas.NormalsScale
import Verif.Props.Morley
import Verif.Props.RTElement

namespace FIAT
section
open Matrix
variable {D : ℕ}

/-- The line. -/
theorem computeNormal_line {L : LinAlg} {pop : List ℕ → ℕ} {s : SimplexCell (Fin 1 → ℝ)} (hs : ProperSimplex ℝ s) {e : ℕ} {t : List ℕ}
    (h : HasEntity s.topo 0 e t) {off : Fin 2} (ht : ∀ a, a ∈ t ↔ a < 2 ∧ a ≠ off) :
    ∃ n, computeNormal L pop s e = some n ∧ UnitOutward s t off n := by
  have hte := hs.2.1.vertex e t h
  subst hte
  obtain ⟨-, -, h3⟩ := hs.2.1.entity _ _ _ h
  have he : e < 2 := by have := h3 e (by simp); rw [hs.1] at this; exact this
  have hoff : e ≠ off := ((ht e).1 (by simp)).2
  have hlen : s.verts.length = 2 := by rw [hs.2.1.nverts, hs.1]
  have hv : ∀ a, a < 2 → s.verts[a]? = some (s.v a) := by
    intro a ha
    rw [List.getElem?_eq_getElem (by omega)]
    simp [SimplexCell.v, hlen, ha]
  have hother : [1, 0][e]? = some (off : ℕ) := by
    have := off.2
    rcases (by omega : e = 0 ∨ e = 1) with rfl | rfl
    · have : (off : ℕ) = 1 := by omega
      rw [this]; rfl
    · have : (off : ℕ) = 0 := by omega
      rw [this]; rfl
  have hne : s.v e ≠ s.v off := by
    intro heq
    have hi := (proper_independent hs).injective
    have := @hi ⟨e, he⟩ off heq
    exact hoff (congrArg Fin.val this)
  have hd : s.v e 0 - s.v off 0 ≠ 0 := by
    intro h0
    apply hne
    funext j
    rw [Subsingleton.elim j 0]
    linarith
  have hnorm : norm2 (s.v e - s.v off) = |s.v e 0 - s.v off 0| := by
    unfold norm2
    rw [Fin.sum_univ_one, Pi.sub_apply, ← pow_two, Real.sqrt_sq_eq_abs]
  obtain ⟨es, he1, he2⟩ := h
  have he1' : Dict.get? s.topo 0 = some es := he1
  have he2' : Dict.get? es e = some [e] := he2
  refine ⟨fun i => (s.v e i - s.v off i) / norm2 (s.v e - s.v off), ?_, ?_, ?_, ?_⟩
  · unfold computeNormal
    rw [if_pos hs.1]
    show ((Dict.get? s.topo 0).bind fun es => (Dict.get? es e).bind fun t => _) = _
    rw [he1', Option.bind_some, he2', Option.bind_some]
    show ([1, 0][e]?.bind fun other => s.verts[e]?.bind fun a => s.verts[other]?.bind fun b => _) = _
    rw [hother, Option.bind_some, hv e he, Option.bind_some, hv off off.2, Option.bind_some]
  · rw [Fin.sum_univ_one, hnorm, div_pow, sq_abs, div_self (pow_ne_zero 2 hd)]
  · intro a ha c hc
    rw [List.mem_singleton] at ha hc
    subst ha hc
    simp
  · intro a ha
    rw [List.mem_singleton] at ha
    subst ha
    rw [Fin.sum_univ_one, hnorm, div_mul_eq_mul_div, ← pow_two]
    exact div_pos (by positivity) (abs_pos.2 hd)

/-- **C66.** `compute_normal` returns, for every facet of a simplex of any dimension `D ≥ 1` that is not tiny, the vector of length 1 that is
orthogonal to the facet and points out of the simplex; there is only one. -/
theorem compute_normal_spec {L : LinAlg} (hL : LinAlgOK L) {pop : List ℕ → ℕ} (hpop : ∀ t : List ℕ, t ≠ [] → pop t ∈ t) (hD : 1 ≤ D)
    {s : SimplexCell (Fin D → ℝ)} (hs : ProperSimplex ℝ s) (hl : LargeEnough s) {e : ℕ} {t : List ℕ} (h : HasEntity s.topo (D - 1) e t)
    {off : Fin (D + 1)} (ht : ∀ a, a ∈ t ↔ a < D + 1 ∧ a ≠ off) :
    ∃ n, computeNormal L pop s e = some n ∧ UnitOutward s t off n ∧ ∀ n', UnitOutward s t off n' → n' = n := by
  have : ∃ n, computeNormal L pop s e = some n ∧ UnitOutward s t off n := by
    rcases (by omega : D = 1 ∨ 2 ≤ D) with rfl | h2
    · exact computeNormal_line hs h ht
    · exact computeNormal_ge_two hL hpop h2 hs (hl.cell hs) h ht (hl.entity hs h)
  obtain ⟨n, h1, h2⟩ := this
  exact ⟨n, h1, h2, fun n' h' => h'.unique hD hs ht h2⟩

/-- **C66.** `compute_reference_normal` returns a positive multiple of the unit outward normal, with largest component 1 in absolute value. -/
theorem compute_reference_normal_spec {L : LinAlg} (hL : LinAlgOK L) {pop : List ℕ → ℕ} (hpop : ∀ t : List ℕ, t ≠ [] → pop t ∈ t) (hD : 1 ≤ D)
    {s : SimplexCell (Fin D → ℝ)} (hs : ProperSimplex ℝ s) (hl : LargeEnough s) {e : ℕ} {t : List ℕ} (h : HasEntity s.topo (D - 1) e t)
    {off : Fin (D + 1)} (ht : ∀ a, a ∈ t ↔ a < D + 1 ∧ a ≠ off) (facet_dim : ℕ) :
    (facet_dim + 1 ≠ D → computeReferenceNormal L pop s facet_dim e = none) ∧
      ∃ r n, computeReferenceNormal L pop s (D - 1) e = some r ∧ UnitOutward s t off n ∧ (∃ c : ℝ, 0 < c ∧ r = c • n) ∧
        (∀ j, |r j| ≤ 1) ∧ ∃ j, |r j| = 1 := by
  obtain ⟨n, h1, h2, -⟩ := compute_normal_spec hL hpop hD hs hl h ht
  refine ⟨fun hne => ?_, fun i => n i / ‖n‖, n, ?_, h2, ⟨‖n‖⁻¹, ?_, ?_⟩, ?_, ?_⟩
  · unfold computeReferenceNormal
    rw [if_neg (by rw [hs.1]; exact hne)]
  · unfold computeReferenceNormal
    rw [if_pos (by rw [hs.1]; omega), h1]
    rfl
  all_goals
    have hn0 : n ≠ 0 := by
      rintro rfl
      have := h2.unit
      simp at this
    have hpos : 0 < ‖n‖ := norm_pos_iff.2 hn0
  · exact inv_pos.2 hpos
  · funext i
    rw [Pi.smul_apply, smul_eq_mul, div_eq_inv_mul]
  · intro j
    rw [abs_div, abs_of_pos hpos, div_le_one hpos]
    exact norm_le_pi_norm n j
  · haveI : Nonempty (Fin D) := ⟨⟨0, by omega⟩⟩
    obtain ⟨j, hj⟩ := Finite.exists_max fun j => ‖n j‖
    refine ⟨j, ?_⟩
    have : ‖n‖ = |n j| := le_antisymm ((pi_norm_le_iff_of_nonneg (abs_nonneg _)).2 hj) (norm_le_pi_norm n j)
    rw [abs_div, abs_of_pos hpos, this, div_self (by rw [← this]; exact hpos.ne')]

/-- **C66.** `volume` of the points `w` (at most four, in a space of any sufficient dimension) is the positive number whose square is the Gram determinant of the edges
divided by `(n!)²`. -/
theorem volume_spec {L : LinAlg} (hL : LinAlgOK L) {n : ℕ} (hn : n ≤ 3) (hle : n ≤ D) (w : Fin (n + 1) → Fin D → ℝ) (hw : NotTiny (List.ofFn w)) :
    ∃ v, volume L (List.ofFn w) = some v ∧ 0 < v ∧
      v ^ 2 * (n.factorial : ℝ) ^ 2 = Matrix.det fun i k : Fin n => ∑ j, (w i.succ j - w 0 j) * (w k.succ j - w 0 j) := by
  have hlen : (List.ofFn w).length = n + 1 := List.length_ofFn
  obtain ⟨v, h1, h2, h3⟩ := volume_list hL (List.ofFn w) (by intro h; rw [h] at hlen; simp at hlen) (by omega) (by omega) hw
  refine ⟨v, h1, h2, ?_⟩
  rw [gram_ofFn, hlen] at h3
  rw [← mul_pow]
  refine h3.trans ?_
  congr 1

/-- **C66.** In full dimension the value of `volume` is the Lebesgue measure of the simplex. -/
theorem volume_measure {L : LinAlg} (hL : LinAlgOK L) (hD : D ≤ 3) (w : Fin (D + 1) → Fin D → ℝ) (hi : AffineIndependent ℝ w)
    (hw : NotTiny (List.ofFn w)) : volume L (List.ofFn w) = some (MeasureTheory.volume (convexHull ℝ (Set.range w))).toReal := by
  obtain ⟨v, h1, h2, h3⟩ := volume_spec hL hD le_rfl w hw
  rw [h1]
  have h4 := hull_measure w hi
  have h5 : (Matrix.det fun i k : Fin D => ∑ j, (w i.succ j - w 0 j) * (w k.succ j - w 0 j)) = (edgesOf w).det ^ 2 := by
    have : (edgesOf w).det ^ 2 = (edgesOf w * (edgesOf w)ᵀ).det := by rw [Matrix.det_mul, Matrix.det_transpose, pow_two]
    rw [this]
    rfl
  rw [h5, ← sq_abs (edgesOf w).det, ← h4, mul_pow] at h3
  have hf : (0 : ℝ) < (D.factorial : ℝ) ^ 2 := by positivity
  have h6 := mul_right_cancel₀ hf.ne' h3
  congr 1
  exact (pow_left_inj₀ h2.le ENNReal.toReal_nonneg two_ne_zero).1 h6

/-- **C66.** `compute_scaled_normal` returns the outward normal whose length is the volume of the facet; its scalar product with an edge from
the opposite vertex to the facet is `D` times the measure of the simplex. -/
theorem compute_scaled_normal_spec {L : LinAlg} (hL : LinAlgOK L) {pop : List ℕ → ℕ} (hpop : ∀ t : List ℕ, t ≠ [] → pop t ∈ t) (hD : 1 ≤ D)
    (hD4 : D ≤ 4) {s : SimplexCell (Fin D → ℝ)} (hs : ProperSimplex ℝ s) (hl : LargeEnough s) {e : ℕ} {t : List ℕ}
    (h : HasEntity s.topo (D - 1) e t) {off : Fin (D + 1)} (ht : ∀ a, a ∈ t ↔ a < D + 1 ∧ a ≠ off) :
    ∃ n u v, computeScaledNormal L pop s e = some n ∧ UnitOutward s t off u ∧ volumeOfSubcomplex L s (D - 1) e = some v ∧ 0 < v ∧ n = v • u ∧
      ∀ a ∈ t, ∑ j, n j * (s.v a j - s.v off j) =
        D * (MeasureTheory.volume (convexHull ℝ (Set.range fun i : Fin (D + 1) => s.v i))).toReal := by
  obtain ⟨u, h1, h2, -⟩ := compute_normal_spec hL hpop hD hs hl h ht
  obtain ⟨m, rfl⟩ : ∃ m, D = m + 1 := ⟨D - 1, by omega⟩
  obtain ⟨τ, hτ1, hτ2, hτ3, hτ4⟩ := entity_tuple hs h
  change Fin (m + 1) → ℕ at τ
  obtain ⟨v, v1, v2, v3⟩ := volume_spec hL (n := m) (by omega) (by omega) (fun j => s.v (τ j)) (by
    have := hl.entity hs h
    rw [hτ3, List.map_ofFn] at this
    exact this)
  have hv : volumeOfSubcomplex L s m e = some v := by
    unfold volumeOfSubcomplex
    show (entityVerts s m e).bind _ = _
    rw [show entityVerts s m e = some (List.ofFn fun j : Fin (m + 1) => s.v (τ j)) from hτ4, Option.bind_some]
    exact v1
  refine ⟨v • u, u, v, ?_, h2, hv, v2, rfl, ?_⟩
  · unfold computeScaledNormal
    rw [hs.1]
    show (volumeOfSubcomplex L s m e).bind _ = _
    rw [hv, Option.bind_some, h1]
    rfl
  · -- the same simplex, the facet first
    let y : Fin (m + 1 + 1) → Fin (m + 1) → ℝ := fun i => Fin.lastCases (s.v off) (fun j => s.v (τ j)) i
    have hy1 : ∀ j : Fin (m + 1), y j.castSucc = s.v (τ j) := fun j => by simp [y]
    have hy2 : y (Fin.last (m + 1)) = s.v off := by simp [y]
    have hmem : ∀ j, τ j ∈ t := fun j => by rw [hτ3]; exact List.mem_ofFn.2 ⟨j, rfl⟩
    let ρ : Fin (m + 1 + 1) → Fin (m + 1 + 1) := fun i => Fin.lastCases off (fun j => ⟨τ j, hτ2 j⟩) i
    have hρ1 : ∀ j : Fin (m + 1), ρ j.castSucc = ⟨τ j, hτ2 j⟩ := fun j => by simp [ρ]
    have hρ2 : ρ (Fin.last (m + 1)) = off := by simp [ρ]
    have hyρ : ∀ i, y i = s.v (ρ i) := by
      intro i
      refine Fin.lastCases ?_ (fun j => ?_) i
      · rw [hy2, hρ2]
      · rw [hy1, hρ1]
    have hinj : Function.Injective ρ := by
      intro a b
      refine Fin.lastCases ?_ (fun a' => ?_) a <;> refine Fin.lastCases ?_ (fun b' => ?_) b
      · exact fun _ => rfl
      · intro hab
        rw [hρ1, hρ2] at hab
        exact absurd (congrArg Fin.val hab).symm ((ht _).1 (hmem b')).2
      · intro hab
        rw [hρ1, hρ2] at hab
        exact absurd (congrArg Fin.val hab) ((ht _).1 (hmem a')).2
      · intro hab
        rw [hρ1, hρ1] at hab
        rw [hτ1 (Fin.mk.inj hab)]
    have hsurj : Function.Surjective ρ := Finite.surjective_of_injective hinj
    have hrange : Set.range y = Set.range fun i : Fin (m + 1 + 1) => s.v i := by
      ext x
      constructor
      · rintro ⟨i, rfl⟩
        exact ⟨ρ i, (hyρ i).symm⟩
      · rintro ⟨i, rfl⟩
        obtain ⟨k, rfl⟩ := hsurj i
        exact ⟨k, hyρ k⟩
    have hind : AffineIndependent ℝ y := by
      have := (proper_independent hs).comp_embedding ⟨ρ, hinj⟩
      convert this using 1
      funext i
      exact hyρ i
    have hmeas := hull_measure y hind
    rw [hrange] at hmeas
    set μ := (MeasureTheory.volume (convexHull ℝ (Set.range fun i : Fin (m + 1 + 1) => s.v i))).toReal with hμ
    have hμ0 : 0 ≤ μ := ENNReal.toReal_nonneg
    -- determinants
    have hedge : ∀ (i : Fin m) j, edgesOf y i.castSucc j = s.v (τ i.succ) j - s.v (τ 0) j := by
      intro i j
      unfold edgesOf
      rw [← Fin.castSucc_succ, hy1, ← Fin.castSucc_zero, hy1]
    have hlast : ∀ j, edgesOf y (Fin.last m) j = s.v off j - s.v (τ 0) j := by
      intro j
      unfold edgesOf
      rw [Fin.succ_last, hy2, ← Fin.castSucc_zero, hy1]
    have hb := det_base (edgesOf y) u h2.unit (by
      intro i
      simp only [hedge]
      exact h2.orth _ (hmem _) _ (hmem _))
    simp only [hedge, hlast] at hb
    rw [← v3] at hb
    have hu0 : ∑ j, u j * (s.v off j - s.v (τ 0) j) = -∑ j, u j * (s.v (τ 0) j - s.v off j) := by
      rw [← Finset.sum_neg_distrib]
      exact Finset.sum_congr rfl fun j _ => by ring
    have hout := h2.outward _ (hmem 0)
    set δ := ∑ j, u j * (s.v (τ 0) j - s.v off j) with hδ
    rw [hu0] at hb
    have hsq : (edgesOf y).det ^ 2 = (v * (m.factorial : ℝ) * δ) ^ 2 := by
      have hpos : (0 : ℝ) < v ^ 2 * (m.factorial : ℝ) ^ 2 := by positivity
      apply mul_right_cancel₀ hpos.ne'
      rw [hb]; ring
    have habs : |(edgesOf y).det| = v * (m.factorial : ℝ) * δ := by
      rw [← sq_abs] at hsq
      exact (pow_left_inj₀ (abs_nonneg _) (by positivity) two_ne_zero).1 hsq
    rw [habs, Nat.factorial_succ, Nat.cast_mul] at hmeas
    have hfac : (0 : ℝ) < (m.factorial : ℝ) := by positivity
    have hmain : v * δ = ((m + 1 : ℕ) : ℝ) * μ := by
      apply mul_right_cancel₀ hfac.ne'
      linear_combination -hmeas
    intro a ha
    rw [← hmain, hδ]
    have := h2.orth a ha _ (hmem 0)
    have e : ∑ j, (v • u) j * (s.v a j - s.v off j) = v * (∑ j, u j * (s.v a j - s.v (τ 0) j) + ∑ j, u j * (s.v (τ 0) j - s.v off j)) := by
      rw [← Finset.sum_add_distrib, Finset.mul_sum]
      refine Finset.sum_congr rfl fun j _ => ?_
      rw [Pi.smul_apply, smul_eq_mul]; ring
    rw [e, this, zero_add]

/-- **C66.** The scaled normals of the facets of a simplex add up to zero. -/
theorem scaled_normals_sum {L : LinAlg} (hL : LinAlgOK L) {pop : List ℕ → ℕ} (hpop : ∀ t : List ℕ, t ≠ [] → pop t ∈ t) (hD : 1 ≤ D)
    (hD4 : D ≤ 4) {s : SimplexCell (Fin D → ℝ)} (hs : ProperSimplex ℝ s) (hl : LargeEnough s) (es : Fin (D + 1) → ℕ)
    (he : ∀ i, ∃ t, HasEntity s.topo (D - 1) (es i) t ∧ (i : ℕ) ∉ t) (ns : Fin (D + 1) → Fin D → ℝ)
    (hn : ∀ i, computeScaledNormal L pop s (es i) = some (ns i)) : ∑ i, ns i = 0 := by
  obtain ⟨g, b, hb⟩ := baryForms_exist _ (proper_independent hs)
  set μ := (MeasureTheory.volume (convexHull ℝ (Set.range fun i : Fin (D + 1) => s.v i))).toReal with hμ
  have key : ∀ i, ns i = (-(D * μ)) • g i := by
    intro i
    obtain ⟨t, h1, h2⟩ := he i
    obtain ⟨off, ht⟩ := facet_opposite hD hs h1
    have hoff : off = i := by
      by_contra hne
      exact h2 ((ht i).2 ⟨i.2, fun h => hne (Fin.ext h).symm⟩)
    subst hoff
    obtain ⟨n, u, v, n1, n2, -, -, n3, n4⟩ := compute_scaled_normal_spec hL hpop hD hD4 hs hl h1 ht
    rw [hn off, Option.some.injEq] at n1
    subst n1
    obtain ⟨c, hc⟩ := hb.normal hD off (ns off) fun a c ha hc => by
      have := n2.orth a ((ht a).2 ⟨a.2, fun h => ha (Fin.ext h)⟩) c ((ht c).2 ⟨c.2, fun h => hc (Fin.ext h)⟩)
      rw [n3]
      simp only [Pi.smul_apply, smul_eq_mul, mul_assoc]
      rw [← Finset.mul_sum, this, mul_zero]
    obtain ⟨a, ha⟩ : ∃ j : Fin (D + 1), j ≠ off := by
      haveI : Nontrivial (Fin (D + 1)) := Fin.nontrivial_iff_two_le.2 (by omega)
      exact exists_ne off
    have h4 := n4 a ((ht a).2 ⟨a.2, fun h => ha (Fin.ext h)⟩)
    have e1 := hb.at_vertex off a
    have e2 := hb.at_vertex off off
    rw [if_neg ha.symm, eval_linForm] at e1
    rw [if_pos rfl, eval_linForm] at e2
    have : ∑ j, ns off j * (s.v a j - s.v off j) = c * (∑ j, g off j * s.v a j - ∑ j, g off j * s.v off j) := by
      rw [hc, ← Finset.sum_sub_distrib, Finset.mul_sum]
      refine Finset.sum_congr rfl fun j _ => ?_
      rw [Pi.smul_apply, smul_eq_mul]; ring
    rw [this] at h4
    have hcv : c = -(D * μ) := by linear_combination -h4 + c * e1 - c * e2
    rw [hc, hcv]
  simp only [key]
  rw [← Finset.smul_sum]
  have hg : ∑ i, g i = 0 := by
    funext j
    have e0 := hb.sum_one 0
    have e1 := hb.sum_one (Pi.single j 1)
    simp only [eval_linForm, Finset.sum_add_distrib] at e0 e1
    simp only [Pi.zero_apply, mul_zero, Finset.sum_const_zero, add_zero, Pi.single_apply, mul_ite, mul_one, Finset.sum_ite_eq',
      Finset.mem_univ, if_true] at e0 e1
    rw [Finset.sum_apply, Pi.zero_apply]
    linarith
  rw [hg, smul_zero]

/-! ### The contract of the elements -/

/-- **C66.** `compute_normal` meets the contract the elements rely on, for every cell that is not tiny. -/
theorem compute_normal_contract {L : LinAlg} (hL : LinAlgOK L) {pop : List ℕ → ℕ} (hpop : ∀ t : List ℕ, t ≠ [] → pop t ∈ t) (hD : 1 ≤ D)
    {s : SimplexCell (Fin D → ℝ)} (hs : ProperSimplex ℝ s) (hl : LargeEnough s) : FacetNormals s (computeNormal L pop s) := by
  intro e t h
  obtain ⟨off, ht⟩ := facet_opposite hD hs h
  obtain ⟨n, h1, h2, -⟩ := compute_normal_spec hL hpop hD hs hl h ht
  refine ⟨n, h1, ?_, h2.orth⟩
  rintro rfl
  have := h2.unit
  simp at this

/-- **C66.** So does `compute_scaled_normal`. -/
theorem compute_scaled_normal_contract {L : LinAlg} (hL : LinAlgOK L) {pop : List ℕ → ℕ} (hpop : ∀ t : List ℕ, t ≠ [] → pop t ∈ t)
    (hD : 1 ≤ D) (hD4 : D ≤ 4) {s : SimplexCell (Fin D → ℝ)} (hs : ProperSimplex ℝ s) (hl : LargeEnough s) :
    FacetNormals s (computeScaledNormal L pop s) := by
  intro e t h
  obtain ⟨off, ht⟩ := facet_opposite hD hs h
  obtain ⟨n, u, v, h1, h2, -, h3, h4, -⟩ := compute_scaled_normal_spec hL hpop hD hD4 hs hl h ht
  refine ⟨n, h1, ?_, fun a ha c hc => ?_⟩
  · rintro rfl
    have := h2.unit
    rcases smul_eq_zero.1 h4.symm with h0 | h0
    · exact h3.ne' h0
    · rw [h0] at this
      simp at this
  · rw [h4]
    simp only [Pi.smul_apply, smul_eq_mul, mul_assoc]
    rw [← Finset.mul_sum, h2.orth a ha c hc, mul_zero]

/-! ### When `compute_normal` raises -/

/-- **C66.** For a simplex embedded in a space of another dimension `compute_normal` raises, although its comments say that the case is treated. -/
theorem compute_normal_embedded (L : LinAlg) (pop : List ℕ → ℕ) (s : SimplexCell (Fin D → ℝ)) (h1 : s.sd ≠ 1) (h2 : s.verts.length - 1 ≠ D)
    (e : ℕ) : computeNormal L pop s e = none := by
  unfold computeNormal
  rw [if_neg h1]
  show ((Dict.get? s.topo (s.sd - 1)).bind fun es => (Dict.get? es e).bind fun t => (verticesOf s t).bind fun vcf => _) = none
  cases Dict.get? s.topo (s.sd - 1) with
  | none => rfl
  | some es =>
    rw [Option.bind_some]
    cases Dict.get? es e with
    | none => rfl
    | some t =>
      rw [Option.bind_some]
      cases verticesOf s t with
      | none => rfl
      | some vcf =>
        rw [Option.bind_some]
        have : ∀ {p q : ℕ} (A : Matrix (Fin D) (Fin p) ℝ) (B : Matrix (Fin (s.verts.length - 1)) (Fin q) ℝ),
            subspaceIntersection L A B = none := by
          intro p q A B
          unfold subspaceIntersection
          rw [dif_neg (fun h => h2 h.symm)]
        simp only [this]
        rfl

/-- **C66.** For a cell whose edges are all tiny (their combinations with coefficients of length 1 are not longer than `1e-10`)
`compute_normal` raises, however well shaped the cell is. -/
theorem compute_normal_tiny {L : LinAlg} (hL : LinAlgOK L) (pop : List ℕ → ℕ) (s : SimplexCell (Fin D → ℝ)) (h1 : s.sd ≠ 1)
    (htiny : ∀ c : Fin (s.verts.length - 1) → ℝ, ∑ j, (∑ i, c i * (s.verts.getD ((i : ℕ) + 1) 0 j - s.verts.getD 0 0 j)) ^ 2 ≤ 1e-20 * ∑ i, c i ^ 2)
    (e : ℕ) : computeNormal L pop s e = none := by
  have hs := hL.svd _ _ (edgeRows s.verts)
  have hsing : ∀ x ∈ (L.svd _ _ (edgeRows s.verts)).2.1, x ≤ 1e-10 := by
    intro x hx
    obtain ⟨k, hk, rfl⟩ := List.getElem_of_mem hx
    have hlen := hs.length
    have hkn : k < s.verts.length - 1 := by omega
    have hkm : k < D := by omega
    have h0 := hs.nonneg _ (List.getElem_mem hk)
    have h1 := htiny fun i => (L.svd _ _ (edgeRows s.verts)).1 i ⟨k, hkn⟩
    have h2 := orth_cols hs.u ⟨k, hkn⟩ ⟨k, hkn⟩
    rw [if_pos rfl] at h2
    simp only [← pow_two] at h2
    rw [h2, mul_one] at h1
    have h3 : ∀ j, ∑ i, (L.svd _ _ (edgeRows s.verts)).1 i ⟨k, hkn⟩ * (s.verts.getD ((i : ℕ) + 1) 0 j - s.verts.getD 0 0 j) =
        (L.svd _ _ (edgeRows s.verts)).2.1[k] * (L.svd _ _ (edgeRows s.verts)).2.2 ⟨k, hkm⟩ j := by
      intro j
      have := congrFun (congrFun hs.left ⟨k, hkn⟩) j
      rw [diag_mul_row _ _ _ hkm, Matrix.mul_apply] at this
      rw [List.getD_eq_getElem?_getD, List.getElem?_eq_getElem hk] at this
      exact this
    simp only [h3, mul_pow] at h1
    rw [← Finset.mul_sum] at h1
    have h4 := orth_rows hs.vt ⟨k, hkm⟩ ⟨k, hkm⟩
    rw [if_pos rfl] at h4
    simp only [← pow_two] at h4
    rw [h4, mul_one] at h1
    by_contra hc
    push Not at hc
    nlinarith
  have hrank : rankOf (L.svd _ _ (edgeRows s.verts)).2.1 = 0 := by
    unfold rankOf
    rw [List.length_eq_zero_iff, List.filter_eq_nil_iff]
    intro x hx
    have := hsing x hx
    simpa using this
  unfold computeNormal
  rw [if_neg h1]
  show ((Dict.get? s.topo (s.sd - 1)).bind fun es => (Dict.get? es e).bind fun t => (verticesOf s t).bind fun vcf => _) = none
  cases Dict.get? s.topo (s.sd - 1) with
  | none => rfl
  | some es =>
    rw [Option.bind_some]
    cases Dict.get? es e with
    | none => rfl
    | some t =>
      rw [Option.bind_some]
      cases verticesOf s t with
      | none => rfl
      | some vcf =>
        rw [Option.bind_some]
        have : ∀ {m p m' q : ℕ} (A : Matrix (Fin m) (Fin p) ℝ) (B : Matrix (Fin m') (Fin q) ℝ) x, q = 0 →
            subspaceIntersection L A B = some x → x.1 = 0 := by
          intro m p m' q A B x hq hx
          unfold subspaceIntersection at hx
          split_ifs at hx with hm
          rw [Option.some.injEq] at hx
          rw [← hx]
          have hlen := (hL.svd _ _ ((L.qr m p A).1ᵀ * (L.qr m q (B.submatrix (Fin.cast hm) id)).1)).length
          have hle := List.length_filter_le (fun s => decide (|1.0 - s| < 1e-10))
            (L.svd _ _ ((L.qr m p A).1ᵀ * (L.qr m q (B.submatrix (Fin.cast hm) id)).1)).2.1
          show min _ (min m p) = 0
          omega
        show (subspaceIntersection L _ _).bind _ = none
        cases hx : subspaceIntersection L (lastRows (L.svd _ _ (edgeRows vcf)).2.2 (rankOf (L.svd _ _ (edgeRows vcf)).2.1))ᵀ
            (firstCols (L.svd _ _ (edgeRows s.verts)).1 (rankOf (L.svd _ _ (edgeRows s.verts)).2.1)) with
        | none => rfl
        | some x =>
          have := this _ _ x (by rw [hrank]; exact min_eq_left (Nat.zero_le _)) hx
          rw [Option.bind_some, dif_neg (by omega)]

/-! ### Cases that meet the hypotheses -/

/-- `pop` is often the first element. -/
private theorem head_pop : ∀ t : List ℕ, t ≠ [] → t.headD 0 ∈ t := by
  intro t ht
  cases t with
  | nil => exact absurd rfl ht
  | cons a t => simp

/-- The cells of FIAT are not tiny. -/
example : LargeEnough ((ufcInterval : CellData ℝ).toSimplex 1) ∧ LargeEnough ((ufcTriangle : CellData ℝ).toSimplex 2) ∧
    LargeEnough ((ufcTetrahedron : CellData ℝ).toSimplex 3) ∧ LargeEnough ((defaultTriangle : CellData ℝ).toSimplex 2) ∧
    LargeEnough ((intrepidTriangle : CellData ℝ).toSimplex 2) := by
  refine ⟨largeEnough_of_edges (r := 1) (by norm_num) (by norm_num) ?_, largeEnough_of_edges (r := 1) (by norm_num) (by norm_num) ?_,
    largeEnough_of_edges (r := 1) (by norm_num) (by norm_num) ?_, largeEnough_of_edges (r := 2) (by norm_num) (by norm_num) ?_,
    largeEnough_of_edges (r := 1) (by norm_num) (by norm_num) ?_⟩ <;> intro i j <;> fin_cases i <;> fin_cases j <;>
    simp [SimplexCell.v, CellData.toSimplex, ufcInterval, ufcTriangle, ufcTetrahedron, defaultTriangle, intrepidTriangle] <;> norm_num

/-- `compute_normal` on the facets of the default tetrahedron. -/
example : ∃ L, LinAlgOK L ∧ FacetNormals ((defaultTetrahedron : CellData ℝ).toSimplex 3)
    (computeNormal L (fun t => t.headD 0) ((defaultTetrahedron : CellData ℝ).toSimplex 3)) := by
  obtain ⟨L, hL⟩ := linAlgOK_exists
  refine ⟨L, hL, compute_normal_contract hL head_pop (by norm_num) proper_defaultTetrahedron
    (largeEnough_of_edges (r := 2) (by norm_num) (by norm_num) ?_)⟩
  intro i j
  fin_cases i <;> fin_cases j <;> simp [SimplexCell.v, CellData.toSimplex, defaultTetrahedron] <;> norm_num

/-- The scaled normal of the long edge of the UFC triangle is a positive multiple of `(1, 1)`, whatever decompositions numpy computes. -/
example (L : LinAlg) (hL : LinAlgOK L) : ∃ n, computeScaledNormal L (fun t => t.headD 0) ((ufcTriangle : CellData ℝ).toSimplex 2) 0 = some n ∧
    n 0 - n 1 = 0 ∧ ∃ c > 0, n 0 = c := by
  have hl : LargeEnough ((ufcTriangle : CellData ℝ).toSimplex 2) := by
    refine largeEnough_of_edges (r := 1) (by norm_num) (by norm_num) ?_
    intro i j
    fin_cases i <;> fin_cases j <;> simp [SimplexCell.v, CellData.toSimplex, ufcTriangle]
  have h : HasEntity ((ufcTriangle : CellData ℝ).toSimplex 2).topo (2 - 1) 0 [1, 2] := ⟨_, rfl, rfl⟩
  obtain ⟨n, u, v, h1, h2, -, h3, h4, -⟩ := compute_scaled_normal_spec hL head_pop (by norm_num) (by norm_num) proper_ufcTriangle hl h
    (off := 0) (by
      intro a
      simp only [List.mem_cons, List.not_mem_nil, or_false, Fin.val_zero]
      omega)
  have e1 := h2.orth 1 (by simp) 2 (by simp)
  have e2 := h2.outward 1 (by simp)
  rw [Fin.sum_univ_two] at e1 e2
  simp [SimplexCell.v, CellData.toSimplex, ufcTriangle] at e1 e2
  refine ⟨n, h1, ?_, v * u 0, ?_, ?_⟩
  · rw [h4]
    simp only [Pi.smul_apply, smul_eq_mul]
    linear_combination v * e1
  · exact mul_pos h3 e2
  · rw [h4]; rfl

/-- The Morley element on every triangle that is not tiny, with the normals of the code. -/
theorem morley_with_normals {L : LinAlg} (hL : LinAlgOK L) {pop : List ℕ → ℕ} (hpop : ∀ t : List ℕ, t ≠ [] → pop t ∈ t)
    (s : SimplexCell (Fin 2 → ℝ)) (hs : ProperSimplex ℝ s) (hnum : NumberedSimplex s) (hl : LargeEnough s) :
    ∃ el nodes ids, morley s (computeNormal L pop s) = some (el, nodes, ids) ∧ IsNodalScalar 2 nodes el ∧ ProperDofs s nodes ids := by
  obtain ⟨el, nodes, ids, h1, h2, h3, -⟩ := morley_spec s hs hnum _ (compute_normal_contract hL hpop (by norm_num) hs hl)
  exact ⟨el, nodes, ids, h1, h2, h3⟩

/-- A well shaped triangle with legs of length `1e-11`. -/
private noncomputable def tinyTriangle : SimplexCell (Fin 2 → ℝ) :=
  ⟨2, [![0, 0], ![1e-11, 0], ![0, 1e-11]], ((ufcTriangle : CellData ℝ).toSimplex 2).topo⟩

/-- **C66.** Not every nondegenerate triangle has normals: for one with legs of length `1e-11` `compute_normal` raises. -/
theorem compute_normal_not_all : ∃ s : SimplexCell (Fin 2 → ℝ), ProperSimplex ℝ s ∧
    ∀ L, LinAlgOK L → ∀ pop e, computeNormal L pop s e = none := by
  refine ⟨tinyTriangle, ⟨rfl, ?_, ?_, ?_⟩, fun L hL pop e => compute_normal_tiny hL pop _ (by norm_num [tinyTriangle]) ?_ e⟩
  · have e : fullB 2 ((ufcTriangle : CellData ℤ).toSimplex 2).topo = true := by decide +kernel
    exact full_of_fullB _ rfl e
  · refine nondegenerate_of_axes _ rfl ![0, 0] 1e-11 (by norm_num) rfl ?_
    intro i j; fin_cases i <;> fin_cases j <;> simp [SimplexCell.v, tinyTriangle]
  · have e' : cellDimB 2 ((ufcTriangle : CellData ℤ).toSimplex 2).topo = true := by decide +kernel
    exact cellDim_of_cellDimB _ _ e'
  · intro c
    change Fin 2 → ℝ at c
    change ∑ j : Fin 2, (∑ i : Fin 2, _) ^ 2 ≤ 1e-20 * ∑ i : Fin 2, c i ^ 2
    rw [Fin.sum_univ_two, Fin.sum_univ_two, Fin.sum_univ_two, Fin.sum_univ_two]
    simp [tinyTriangle]
    nlinarith [sq_nonneg (c 0), sq_nonneg (c 1)]

/-- A triangle in space: `compute_normal` raises. -/
example (L : LinAlg) (pop : List ℕ → ℕ) (e : ℕ) :
    computeNormal L pop (⟨2, [![0, 0, 0], ![1, 0, 0], ![0, 1, 0]], ((ufcTriangle : CellData ℝ).toSimplex 2).topo⟩ : SimplexCell (Fin 3 → ℝ)) e = none :=
  compute_normal_embedded L pop _ (by norm_num) (by norm_num) e

end
end FIAT
