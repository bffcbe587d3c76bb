/-
The normal `Simplex.compute_normal` finds (C66).
-/
import Verif.Lemmas.LinAlgSpec
import Verif.Lemmas.RTDual

namespace FIAT
section
open Matrix
variable {D : ℕ}

/-- Specification: the length of the combination of the edges from the first vertex with coefficients of length 1 is always larger than the
tolerance `1e-10` of the code: the points are affinely independent, and not too close. -/
def NotTiny (vs : List (Fin D → ℝ)) : Prop :=
  ∀ c : Fin (vs.length - 1) → ℝ, c ≠ 0 → 1e-20 * ∑ i, c i ^ 2 < ∑ j, (∑ i, c i * (vs.getD ((i : ℕ) + 1) 0 j - vs.getD 0 0 j)) ^ 2

/-- Specification: `n` is the unit normal of the facet with vertices `t` that points away from vertex `off`. -/
structure UnitOutward (s : SimplexCell (Fin D → ℝ)) (t : List ℕ) (off : ℕ) (n : Fin D → ℝ) : Prop where
  unit : ∑ j, n j ^ 2 = 1
  orth : ∀ a ∈ t, ∀ c ∈ t, ∑ j, n j * (s.v a j - s.v c j) = 0
  outward : ∀ a ∈ t, 0 < ∑ j, n j * (s.v a j - s.v off j)

theorem firstCols_mul {n m : ℕ} (A : Matrix (Fin n) (Fin m) ℝ) {k : ℕ} (hk : m ≤ k) : firstCols A k * (firstCols A k)ᵀ = A * Aᵀ := by
  have hmin : min k m = m := by omega
  ext i j
  rw [Matrix.mul_apply, Matrix.mul_apply]
  exact Fintype.sum_equiv (finCongr hmin) _ _ fun x => rfl

theorem SVDOf.null {n m : ℕ} {A : Matrix (Fin n) (Fin m) ℝ} {r : Matrix (Fin n) (Fin n) ℝ × List ℝ × Matrix (Fin m) (Fin m) ℝ}
    (h : SVDOf A r) (k : Fin m) (hk : n ≤ (k : ℕ)) (i : Fin n) : ∑ j, A i j * r.2.2 k j = 0 := by
  have := congrFun (congrFun h.right i) k
  rw [mul_diag_zero _ _ _ _ hk, Matrix.mul_apply] at this
  exact this

/-- The normal of a facet is determined by being of length 1, orthogonal to the facet and outward. -/
theorem unitOutward_of (hD : 1 ≤ D) {s : SimplexCell (Fin D → ℝ)} (hs : ProperSimplex ℝ s) {t : List ℕ} {off : Fin (D + 1)}
    (ht : ∀ a, a ∈ t ↔ a < D + 1 ∧ a ≠ off) {n : Fin D → ℝ} (h1 : ∑ j, n j ^ 2 = 1)
    (h2 : ∀ a ∈ t, ∀ c ∈ t, ∑ j, n j * (s.v a j - s.v c j) = 0) :
    (∃ r : ℝ, r ≠ 0 ∧ ∀ a ∈ t, ∑ j, n j * (s.v a j - s.v off j) = r) := by
  obtain ⟨g, b, hb⟩ := baryForms_exist _ (proper_independent hs)
  obtain ⟨c, hc⟩ := hb.normal hD off n fun a c ha hc => h2 a ((ht a).2 ⟨a.2, fun h => ha (Fin.ext h)⟩) c
    ((ht c).2 ⟨c.2, fun h => hc (Fin.ext h)⟩)
  have hc0 : c ≠ 0 := by
    rintro rfl
    rw [zero_smul] at hc
    simp [hc] at h1
  refine ⟨-c, neg_ne_zero.2 hc0, fun a ha => ?_⟩
  obtain ⟨ha1, ha2⟩ := (ht a).1 ha
  have e1 := hb.at_vertex off ⟨a, ha1⟩
  have e2 := hb.at_vertex off off
  rw [if_neg (fun h => ha2 (by rw [h]))] at e1
  rw [if_pos rfl] at e2
  rw [eval_linForm] at e1 e2
  have : ∑ j, n j * (s.v a j - s.v off j) = c * (∑ j, g off j * s.v a j - ∑ j, g off j * s.v off j) := by
    rw [hc, ← Finset.sum_sub_distrib, Finset.mul_sum]
    refine Finset.sum_congr rfl fun j _ => ?_
    rw [Pi.smul_apply, smul_eq_mul]; ring
  rw [this]
  linear_combination c * e1 - c * e2

theorem orientNormal_spec (hD : 1 ≤ D) {s : SimplexCell (Fin D → ℝ)} (hs : ProperSimplex ℝ s) {pop : List ℕ → ℕ}
    (hpop : ∀ t : List ℕ, t ≠ [] → pop t ∈ t) {e : ℕ} {t cell : List ℕ} (h : HasEntity s.topo (D - 1) e t) (hc : HasEntity s.topo D 0 cell)
    {off : Fin (D + 1)} (ht : ∀ a, a ∈ t ↔ a < D + 1 ∧ a ≠ off) {n : Fin D → ℝ} (h1 : ∑ j, n j ^ 2 = 1)
    (h2 : ∀ a ∈ t, ∀ c ∈ t, ∑ j, n j * (s.v a j - s.v c j) = 0) :
    ∃ n', orientNormal pop s t cell n = some n' ∧ UnitOutward s t off n' := by
  obtain ⟨c1, c2, c3⟩ := hs.2.1.entity _ _ _ hc
  obtain ⟨t1, t2, t3⟩ := hs.2.1.entity _ _ _ h
  rw [hs.1] at c3
  have hcell : ∀ a, a ∈ cell ↔ a < D + 1 := by
    intro a
    refine ⟨c3 a, fun ha => ?_⟩
    have : cell.toFinset = Finset.range (D + 1) := by
      apply Finset.eq_of_subset_of_card_le
      · intro x hx
        exact Finset.mem_range.2 (c3 x (List.mem_toFinset.1 hx))
      · rw [List.toFinset_card_of_nodup c1, c2, Finset.card_range]
    rw [← List.mem_toFinset, this]
    exact Finset.mem_range.2 ha
  have hdiff : (cell.filter fun (a : ℕ) => decide (a ∉ t)).dedup = [(off : ℕ)] := by
    rw [List.Nodup.dedup (c1.filter _)]
    refine List.perm_singleton.1 ((List.perm_ext_iff_of_nodup (c1.filter _) (List.nodup_singleton _)).2 fun a => ?_)
    simp only [List.mem_filter, decide_eq_true_eq, List.mem_singleton, hcell, ht]
    constructor
    · rintro ⟨ha, hb⟩
      by_contra hx
      exact hb ⟨ha, hx⟩
    · rintro rfl
      exact ⟨off.2, fun hx => hx.2 rfl⟩
  have hne : t ≠ [] := by
    rintro rfl
    simp at t2
  have hon := hpop t hne
  have hlen : s.verts.length = D + 1 := by rw [hs.2.1.nverts, hs.1]
  have hv : ∀ a, a < D + 1 → s.verts[a]? = some (s.v a) := by
    intro a ha
    rw [List.getElem?_eq_getElem (by omega)]
    simp [SimplexCell.v, hlen, ha]
  obtain ⟨r, hr0, hr⟩ := unitOutward_of hD hs ht h1 h2
  unfold orientNormal
  rw [hdiff]
  show ∃ n', (s.verts[pop t]?.bind fun von => s.verts[(off : ℕ)]?.bind fun voff =>
    if 0 < ∑ i, (von i - voff i) * n i then some n else some (-n)) = some n' ∧ _
  rw [hv _ ((ht _).1 hon).1, hv _ off.2]
  simp only [Option.bind_some]
  have he : ∑ i, (s.v (pop t) i - s.v off i) * n i = r := by
    rw [← hr _ hon]
    exact Finset.sum_congr rfl fun i _ => mul_comm _ _
  rw [he]
  by_cases hpos : 0 < r
  · rw [if_pos hpos]
    exact ⟨n, rfl, h1, h2, fun a ha => by rw [hr a ha]; exact hpos⟩
  · rw [if_neg hpos]
    refine ⟨-n, rfl, ?_, ?_, ?_⟩
    · simpa using h1
    · intro a ha c hc
      have := h2 a ha c hc
      simpa [neg_mul] using this
    · intro a ha
      have := hr a ha
      have hlt : r < 0 := lt_of_le_of_ne (not_lt.1 hpos) hr0
      simp only [Pi.neg_apply, neg_mul, Finset.sum_neg_distrib]
      linarith

/-- Two unit outward normals of a facet are equal. -/
theorem UnitOutward.unique (hD : 1 ≤ D) {s : SimplexCell (Fin D → ℝ)} (hs : ProperSimplex ℝ s) {t : List ℕ} {off : Fin (D + 1)}
    (ht : ∀ a, a ∈ t ↔ a < D + 1 ∧ a ≠ off) {n n' : Fin D → ℝ} (h : UnitOutward s t off n) (h' : UnitOutward s t off n') : n = n' := by
  obtain ⟨g, b, hb⟩ := baryForms_exist _ (proper_independent hs)
  have key : ∀ m, UnitOutward s t off m → ∃ c : ℝ, c < 0 ∧ m = c • g off ∧ c ^ 2 * ∑ j, g off j ^ 2 = 1 := by
    intro m hm
    obtain ⟨c, hc⟩ := hb.normal hD off m fun a c ha hc => hm.orth a ((ht a).2 ⟨a.2, fun h => ha (Fin.ext h)⟩) c
      ((ht c).2 ⟨c.2, fun h => hc (Fin.ext h)⟩)
    refine ⟨c, ?_, hc, ?_⟩
    · obtain ⟨a, ha⟩ : ∃ j : Fin (D + 1), j ≠ off := by
        haveI : Nontrivial (Fin (D + 1)) := Fin.nontrivial_iff_two_le.2 (by omega)
        exact exists_ne off
      have h1 := hm.outward a ((ht a).2 ⟨a.2, fun h => ha (Fin.ext h)⟩)
      have e1 := hb.at_vertex off a
      have e2 := hb.at_vertex off off
      rw [if_neg ha.symm] at e1
      rw [if_pos rfl] at e2
      rw [eval_linForm] at e1 e2
      have : ∑ j, m j * (s.v a j - s.v off j) = c * (∑ j, g off j * s.v a j - ∑ j, g off j * s.v off j) := by
        rw [hc, ← Finset.sum_sub_distrib, Finset.mul_sum]
        refine Finset.sum_congr rfl fun j _ => ?_
        rw [Pi.smul_apply, smul_eq_mul]; ring
      rw [this] at h1
      have e3 : ∑ j, g off j * s.v a j - ∑ j, g off j * s.v off j = -1 := by linear_combination e1 - e2
      rw [e3] at h1
      linarith
    · have := hm.unit
      rw [hc] at this
      rw [← this, Finset.mul_sum]
      exact Finset.sum_congr rfl fun j _ => by rw [Pi.smul_apply, smul_eq_mul]; ring
  obtain ⟨c, h1, h2, h3⟩ := key n h
  obtain ⟨c', h1', h2', h3'⟩ := key n' h'
  have hg : 0 < ∑ j, g off j ^ 2 := by
    rcases lt_or_eq_of_le (Finset.sum_nonneg fun j (_ : j ∈ Finset.univ) => sq_nonneg (g off j)) with hp | hp
    · exact hp
    · rw [← hp] at h3
      simp at h3
  have hcc : c ^ 2 = c' ^ 2 := by
    have : (c ^ 2 - c' ^ 2) * ∑ j, g off j ^ 2 = 0 := by linear_combination h3 - h3'
    rcases mul_eq_zero.1 this with hx | hx
    · linarith
    · exact absurd hx hg.ne'
  have : c = c' := by nlinarith
  rw [h2, h2', this]

theorem rankOf_cell {L : LinAlg} (hL : LinAlgOK L) {vs : List (Fin D → ℝ)} (hv : NotTiny vs) (hle : vs.length - 1 ≤ D) :
    rankOf (L.svd _ _ (edgeRows vs)).2.1 = vs.length - 1 := by
  have h := hL.svd _ _ (edgeRows vs)
  rw [rankOf_full (sing_of_rows h hv hle), h.length]
  omega

/-- In dimension at least two. -/
theorem computeNormal_ge_two {L : LinAlg} (hL : LinAlgOK L) {pop : List ℕ → ℕ} (hpop : ∀ t : List ℕ, t ≠ [] → pop t ∈ t) (hD : 2 ≤ D)
    {s : SimplexCell (Fin D → ℝ)} (hs : ProperSimplex ℝ s) (hcell : NotTiny s.verts) {e : ℕ} {t : List ℕ}
    (h : HasEntity s.topo (D - 1) e t) {off : Fin (D + 1)} (ht : ∀ a, a ∈ t ↔ a < D + 1 ∧ a ≠ off) (hf : NotTiny (t.map s.v)) :
    ∃ n, computeNormal L pop s e = some n ∧ UnitOutward s t off n := by
  obtain ⟨cell, hc⟩ := hs.2.2.2.1
  obtain ⟨t1, t2, t3⟩ := hs.2.1.entity _ _ _ h
  rw [hs.1] at t3
  have hlen : s.verts.length = D + 1 := by rw [hs.2.1.nverts, hs.1]
  have hvs : verticesOf s t = some (t.map s.v) := by
    unfold verticesOf
    refine mapM_some_map t _ _ fun a ha => ?_
    rw [List.getElem?_eq_getElem (by have := t3 a ha; omega)]
    simp [SimplexCell.v, hlen, t3 a ha]
  obtain ⟨es, he1, he2⟩ := h
  obtain ⟨cs, hc1, hc2⟩ := hc
  unfold computeNormal
  rw [if_neg (by rw [hs.1]; omega)]
  have hflen : (t.map s.v).length = D := by rw [List.length_map, t2]; omega
  have hr1 := rankOf_cell hL hcell (by omega)
  have hr2 := rankOf_cell hL hf (by omega)
  have hsv := hL.svd _ _ (edgeRows s.verts)
  have hsf := hL.svd _ _ (edgeRows (t.map s.v))
  obtain ⟨x, hx1, hx2, hx3, c, hx4⟩ := intersection_line hL (lastRows (L.svd _ _ (edgeRows (t.map s.v))).2.2
      (rankOf (L.svd _ _ (edgeRows (t.map s.v))).2.1))ᵀ
    (firstCols (L.svd _ _ (edgeRows s.verts)).1 (rankOf (L.svd _ _ (edgeRows s.verts)).2.1)) (by omega) (by omega) (by omega) (by omega)
    (by rw [firstCols_mul _ (by omega)]; exact hsv.u')
  have hunit : ∑ j, (x.2 j ⟨0, by omega⟩) ^ 2 = 1 := by
    rw [← hx3]
    exact Finset.sum_congr rfl fun j _ => by ring
  have hc0 : c ≠ 0 := by
    rintro rfl
    have := orth_rows hsf.vt ⟨D - 1, by omega⟩ ⟨D - 1, by omega⟩
    rw [if_pos rfl] at this
    have hz : ∀ i, (L.svd _ _ (edgeRows (t.map s.v))).2.2 ⟨D - 1, by omega⟩ i = 0 := by
      intro i
      have := hx4 i
      rw [zero_mul] at this
      refine Eq.trans ?_ this
      show _ = (L.svd _ _ (edgeRows (t.map s.v))).2.2 ⟨_ + 0, _⟩ i
      refine congrArg (fun k => (L.svd _ _ (edgeRows (t.map s.v))).2.2 k i) (Fin.ext ?_)
      show D - 1 = _ + 0
      rw [hr2]
      omega
    simp [hz] at this
  have hedge : ∀ i : Fin ((t.map s.v).length - 1), ∑ j, x.2 j ⟨0, by omega⟩ * edgeRows (t.map s.v) i j = 0 := by
    intro i
    have h1 := hsf.null ⟨D - 1, by omega⟩ (by show (t.map s.v).length - 1 ≤ D - 1; omega) i
    have h2 : ∀ j, (L.svd _ _ (edgeRows (t.map s.v))).2.2 ⟨D - 1, by omega⟩ j = c * x.2 j ⟨0, by omega⟩ := by
      intro j
      refine Eq.trans ?_ (hx4 j)
      show _ = (L.svd _ _ (edgeRows (t.map s.v))).2.2 ⟨_ + 0, _⟩ j
      refine congrArg (fun k => (L.svd _ _ (edgeRows (t.map s.v))).2.2 k j) (Fin.ext ?_)
      show D - 1 = _ + 0
      rw [hr2]
      omega
    have h3 : c * ∑ j, x.2 j ⟨0, by omega⟩ * edgeRows (t.map s.v) i j = 0 := by
      rw [← h1, Finset.mul_sum]
      exact Finset.sum_congr rfl fun j _ => by rw [h2]; ring
    exact (mul_eq_zero.1 h3).resolve_left hc0
  have hget : ∀ i, i < D → (t.map s.v).getD i 0 = s.v (t.getD i 0) := by
    intro i hi
    rw [List.getD_eq_getElem?_getD, List.getElem?_eq_getElem (by omega), List.getD_eq_getElem?_getD,
      List.getElem?_eq_getElem (by rw [List.length_map] at hflen; omega)]
    simp
  have hfirst : ∀ a ∈ t, ∑ j, x.2 j ⟨0, by omega⟩ * (s.v a j - s.v (t.getD 0 0) j) = 0 := by
    intro a ha
    obtain ⟨i, hi, rfl⟩ := List.getElem_of_mem ha
    rcases Nat.eq_zero_or_pos i with rfl | hpos
    · have : t.getD 0 0 = t[0] := by rw [List.getD_eq_getElem?_getD, List.getElem?_eq_getElem hi]; rfl
      rw [this]
      simp
    · have h1 := hedge ⟨i - 1, by omega⟩
      refine Eq.trans ?_ h1
      refine Finset.sum_congr rfl fun j _ => ?_
      unfold edgeRows
      have h2 : i - 1 + 1 = i := by omega
      simp only [h2]
      rw [hget i (by omega), hget 0 (by omega)]
      have : t.getD i 0 = t[i] := by rw [List.getD_eq_getElem?_getD, List.getElem?_eq_getElem hi]; rfl
      rw [this]
  obtain ⟨n, hn1, hn2⟩ := orientNormal_spec (by omega) hs hpop ⟨es, he1, he2⟩ ⟨cs, hc1, hc2⟩ ht hunit (by
    intro a ha c hc
    have h1 := hfirst a ha
    have h2 := hfirst c hc
    rw [← sub_eq_zero.2 (h1.trans h2.symm), ← Finset.sum_sub_distrib]
    exact Finset.sum_congr rfl fun j _ => by ring)
  refine ⟨n, ?_, hn2⟩
  show ((Dict.get? s.topo (s.sd - 1)).bind fun es => (Dict.get? es e).bind fun t => (verticesOf s t).bind fun vcf => _) = _
  rw [hs.1]
  have he1' : Dict.get? s.topo (D - 1) = some es := he1
  have he2' : Dict.get? es e = some t := he2
  have hc1' : Dict.get? s.topo D = some cs := hc1
  have hc2' : Dict.get? cs 0 = some cell := hc2
  rw [he1', Option.bind_some, he2', Option.bind_some, hvs, Option.bind_some]
  show ((subspaceIntersection L (lastRows (L.svd _ _ (edgeRows (t.map s.v))).2.2
      (rankOf (L.svd _ _ (edgeRows (t.map s.v))).2.1))ᵀ
    (firstCols (L.svd _ _ (edgeRows s.verts)).1 (rankOf (L.svd _ _ (edgeRows s.verts)).2.1))).bind fun foo => _) = _
  rw [hx1, Option.bind_some, dif_pos hx2]
  show ((Dict.get? s.topo D).bind fun cells => (Dict.get? cells 0).bind fun cell => _) = _
  rw [hc1', Option.bind_some, hc2', Option.bind_some]
  exact hn1

end
end FIAT
