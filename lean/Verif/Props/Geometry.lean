/-
C03 (make_lattice), C09 (entity transforms), C10 (make_affine_mapping), C11 (UFC normals),
C12 (contains_point).
-/
import Verif.Lemmas.Geometry

namespace FIAT

/-! ### C03 -/

section C03
variable {K V : Type*} [Field K] [LinearOrder K] [IsStrictOrderedRing K] [AddCommGroup V] [Module K V]

/-- Specification: `p` has barycentric coordinates `b` with respect to `verts`. -/
def IsBary (b : List K) (verts : List V) (p : V) : Prop :=
  b.length = verts.length ∧ b.sum = 1 ∧ p = (List.zipWith (· • ·) b verts).sum

/-- C03: every lattice point has barycentric coordinates, all at least `k / n`. -/
theorem make_lattice_bary (v0 : V) (vs : List V) (n k : ℕ) (hn : 1 ≤ n) (p : V) (hvs : vs ≠ [])
    (hp : p ∈ makeLattice K v0 vs n k) :
    ∃ b : List K, IsBary b (v0 :: vs) p ∧ ∀ x ∈ b, (k : K) / n ≤ x := by
  have hn0 : (n : K) ≠ 0 := by positivity
  have hnpos : (0 : K) < n := by positivity
  simp only [makeLattice, List.mem_map, List.length_map] at hp
  obtain ⟨idx, hidx, rfl⟩ := hp
  have hlen : 1 ≤ vs.length := List.length_pos_iff.2 hvs
  obtain ⟨h1, h2, h3⟩ := (lattice_indices_mem n k _ hlen idx).1 hidx
  have hsum : (idx.map fun i : ℕ => (i : K) * (n : K)⁻¹).sum = (idx.sum : K) / n := by
    rw [List.sum_map_mul_right, div_eq_mul_inv]
    congr 1
    simp
  refine ⟨(1 - (idx.sum : K) / n) :: idx.map fun i : ℕ => (i : K) * (n : K)⁻¹, ⟨by simp [h1], ?_, ?_⟩, ?_⟩
  · rw [List.sum_cons, hsum]; ring
  · rw [natCombo_eq_combo]
    have := combo_edges (K := K) (idx.map fun i : ℕ => (i : K)) vs v0 (n : K)⁻¹ (by simp [h1])
    rw [List.map_id'] at this
    rw [this, List.map_map]
    have e : ((fun i : K => i * (n : K)⁻¹) ∘ fun i : ℕ => (i : K)) = fun i : ℕ => (i : K) * (n : K)⁻¹ := rfl
    rw [e, hsum]
    show _ = combo _ _
    rw [combo_cons, sub_smul, one_smul]
    abel
  · intro x hx
    rcases List.mem_cons.1 hx with rfl | hx
    · rw [le_sub_iff_add_le, ← add_div, div_le_one hnpos]
      have : k + idx.sum ≤ n := by omega
      exact_mod_cast this
    · obtain ⟨i, hi, rfl⟩ := List.mem_map.1 hx
      rw [← div_eq_mul_inv]
      have : (k : K) ≤ i := by exact_mod_cast h2 i hi
      exact div_le_div_of_nonneg_right this hnpos.le

theorem combo_get {K V : Type*} [Field K] [AddCommGroup V] [Module K V] (cs : List K) (vs : List V)
    (h : cs.length = vs.length) :
    combo cs vs = ∑ i : Fin vs.length, (cs.get (i.cast h.symm)) • vs.get i := by
  induction cs generalizing vs with
  | nil => cases vs with
    | nil => simp
    | cons _ _ => simp at h
  | cons c cs ih => cases vs with
    | nil => simp at h
    | cons v vs =>
      rw [combo_cons, ih vs (by simpa using h)]
      have := Fin.sum_univ_succ (fun i : Fin (vs.length + 1) =>
        ((c :: cs).get (i.cast h.symm)) • (v :: vs).get i)
      exact this.symm

/-- C03: if the vertices are affinely independent, the lattice points are pairwise distinct. -/
theorem make_lattice_nodup (v0 : V) (vs : List V) (n k : ℕ) (hn : 1 ≤ n)
    (hind : AffineIndependent K (fun i : Fin (v0 :: vs).length => (v0 :: vs).get i)) :
    (makeLattice K v0 vs n k).Nodup := by
  have hn0 : (n : K) ≠ 0 := by positivity
  have hlin : LinearIndependent K (fun i : Fin vs.length => vs.get i - v0) := by
    have h := (affineIndependent_iff_linearIndependent_vsub K
      (fun i : Fin (v0 :: vs).length => (v0 :: vs).get i) (0 : Fin (vs.length + 1))).1 hind
    have := h.comp (fun i : Fin vs.length => (⟨i.succ, Fin.succ_ne_zero i⟩ : {x : Fin (vs.length+1) // x ≠ 0}))
      (by intro a b hab; simpa using hab)
    exact this
  rcases vs with _ | ⟨v1, vs'⟩
  · simp [makeLattice, latticeIter]
  set vs := v1 :: vs' with hvs
  unfold makeLattice
  simp only [List.length_map]
  refine List.Nodup.map_on ?_ (latticeIter_nodup _ _ _)
  intro x hx y hy hxy
  have hlen : 1 ≤ vs.length := by simp [hvs]
  have hx1 := ((lattice_indices_mem n k _ hlen x).1 hx).1
  have hy1 := ((lattice_indices_mem n k _ hlen y).1 hy).1
  have hxy := add_left_cancel hxy
  rw [natCombo_eq_combo, natCombo_eq_combo, combo_get _ _ (by simp [hx1]), combo_get _ _ (by simp [hy1]),
    ← sub_eq_zero, ← Finset.sum_sub_distrib] at hxy
  have hz := Fintype.linearIndependent_iff.1 hlin
    (fun i => ((x.get (i.cast hx1.symm) : K) - (y.get (i.cast hy1.symm) : K)) * (n : K)⁻¹) (by
      rw [← (Fin.castOrderIso (by simp : (vs.map fun v => ((n : K)⁻¹) • (v - v0)).length = vs.length)).toEquiv.sum_comp]
      rw [← hxy]
      refine Finset.sum_congr rfl fun i _ => ?_
      simp [mul_smul, sub_smul, List.get_eq_getElem])
  apply List.ext_getElem (by rw [hx1, hy1])
  intro i hi1 hi2
  have := hz ⟨i, by omega⟩
  rw [mul_eq_zero, or_iff_left (inv_ne_zero hn0), sub_eq_zero] at this
  have h2 := Nat.cast_injective (R := K) this
  simpa using h2

private theorem latticeIter_zero_one (d : ℕ) (hd : 1 ≤ d) : latticeIter 0 1 d = [List.replicate d 0] := by
  induction d with
  | zero => omega
  | succ d ih =>
    match d with
    | 0 => rfl
    | d + 1 =>
      have : pyRange 0 1 = [0] := rfl
      simp only [latticeIter, this, List.flatMap_cons, List.flatMap_nil, List.append_nil, Nat.sub_zero]
      rw [ih (by omega)]
      simp [List.replicate_succ', List.append_assoc]

private theorem natCombo_replicate_zero (d : ℕ) (hs : List V) :
    natCombo K (List.replicate d 0) hs = 0 := by
  induction d generalizing hs with
  | zero => simp [natCombo]
  | succ d ih =>
    cases hs with
    | nil => simp [natCombo]
    | cons h hs => rw [List.replicate_succ, natCombo_cons, ih]; simp

private theorem natCombo_append (a b : List ℕ) (h k : List V) (hl : a.length = h.length) :
    natCombo K (a ++ b) (h ++ k) = natCombo K a h + natCombo K b k := by
  simp only [natCombo]
  rw [List.zipWith_append hl, List.sum_append]

private theorem latticeIter_unit (hs : List V) (h : hs ≠ []) :
    (latticeIter 0 2 hs.length).map (fun idx => natCombo K idx hs) = 0 :: hs := by
  induction hs using List.reverseRecOn with
  | nil => exact absurd rfl h
  | append_singleton hs v ih =>
    rcases hs with _ | ⟨w, hs⟩
    · simp [latticeIter, pyRange, List.range', natCombo]
    · have hlen : ((w :: hs) ++ [v]).length = hs.length + 2 := by simp
      rw [hlen]
      have : pyRange 0 2 = [0, 1] := rfl
      simp only [latticeIter, this, List.flatMap_cons, List.flatMap_nil, List.append_nil, Nat.sub_zero,
        List.map_append, List.map_map]
      have ih' := ih (by simp)
      have hmem : ∀ jj ∈ latticeIter 0 2 (hs.length + 1), jj.length = (w :: hs).length := by
        intro jj hjj
        exact ((latticeIter_mem 0 2 _ (by omega) jj).1 hjj).1
      have e1 : (latticeIter 0 2 (hs.length + 1)).map
            ((fun idx => natCombo K idx (w :: hs ++ [v])) ∘ fun jj => jj ++ [0]) = 0 :: w :: hs := by
        rw [← ih']
        apply List.map_congr_left
        intro jj hjj
        show natCombo K (jj ++ [0]) (w :: hs ++ [v]) = _
        rw [natCombo_append _ _ _ _ (hmem jj hjj)]
        simp [natCombo]
      rw [e1, latticeIter_zero_one _ (by omega)]
      simp only [List.map_cons, List.map_nil, Function.comp]
      rw [natCombo_append _ _ _ _ (by simp), natCombo_replicate_zero]
      simp [natCombo]

/-- C03: order 1 with no interior offset returns the vertices, in order. -/
theorem make_lattice_one (v0 : V) (vs : List V) (hvs : vs ≠ []) :
    makeLattice K v0 vs 1 0 = v0 :: vs := by
  simp only [makeLattice, List.length_map, Nat.cast_one, inv_one, one_smul]
  have h := latticeIter_unit (K := K) (vs.map fun v => v - v0) (by simpa using hvs)
  rw [List.length_map] at h
  have e : (fun idx => v0 + natCombo K idx (vs.map fun v => v - v0)) =
      (fun x => v0 + x) ∘ fun idx => natCombo K idx (vs.map fun v => v - v0) := rfl
  show (latticeIter 0 2 vs.length).map _ = _
  rw [e, ← List.map_map, h]
  simp [Function.comp_def]

/-- Non-vacuity: interior points of the interval, and the order-2 lattice of the UFC triangle. -/
example : makeLattice ℚ (0 : ℚ) [1] 3 1 = [1/3, 2/3] := by decide +kernel
example : makeLattice ℚ ((0, 0) : ℚ × ℚ) [(1, 0), (0, 1)] 2 0 =
    [(0, 0), (1/2, 0), (1, 0), (0, 1/2), (1/2, 1/2), (0, 1)] := by decide +kernel

end C03

end FIAT
