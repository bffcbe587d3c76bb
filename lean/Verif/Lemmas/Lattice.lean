/- Lattice points in terms of integer barycentric coordinates, and nodes on a simplex. -/
import Verif.Props.Geometry
import Verif.Props.Dofs
import Mathlib.Algebra.BigOperators.Group.List.Basic
import Mathlib.Algebra.BigOperators.Field

namespace FIAT

section
variable {K : Type*} {V : Type} [Field K] [LinearOrder K] [IsStrictOrderedRing K] [AddCommGroup V] [Module K V]

/-- The point with barycentric coordinates `β i / n`, `i < N`. -/
def baryPt (K : Type*) {V : Type} [Field K] [AddCommGroup V] [Module K V]
    (v : ℕ → V) (N n : ℕ) (β : ℕ → ℕ) : V := ∑ i ∈ Finset.range N, ((β i : K) / n) • v i

theorem exists_map_eq (t : List ℕ) (ht : t.Nodup) (l : List ℕ) (hl : l.length = t.length) :
    ∃ β : ℕ → ℕ, t.map β = l ∧ ∀ i ∉ t, β i = 0 := by
  induction t generalizing l with
  | nil =>
    rw [List.length_nil, List.length_eq_zero_iff] at hl
    exact ⟨fun _ => 0, by simp [hl], fun _ _ => rfl⟩
  | cons a t ih =>
    rw [List.nodup_cons] at ht
    cases l with
    | nil => simp at hl
    | cons b l =>
      obtain ⟨β, h1, h2⟩ := ih ht.2 l (by simpa using hl)
      refine ⟨Function.update β a b, ?_, ?_⟩
      · rw [List.map_cons, Function.update_self]
        congr 1
        rw [← h1]
        apply List.map_congr_left
        intro x hx
        exact Function.update_of_ne (by rintro rfl; exact ht.1 hx) _ _
      · intro i hi
        simp only [List.mem_cons, not_or] at hi
        rw [Function.update_of_ne hi.1]; exact h2 i hi.2

theorem sum_range_eq_list {M : Type*} [AddCommMonoid M] (t : List ℕ) (ht : t.Nodup) (N : ℕ)
    (hN : ∀ i ∈ t, i < N) (f : ℕ → M) (hf : ∀ i ∉ t, f i = 0) :
    ∑ i ∈ Finset.range N, f i = (t.map f).sum := by
  rw [← List.sum_toFinset _ ht]
  symm
  apply Finset.sum_subset
  · intro i hi; exact Finset.mem_range.2 (hN i (List.mem_toFinset.1 hi))
  · intro i _ hi; exact hf i (by simpa using hi)

omit [LinearOrder K] [IsStrictOrderedRing K] in
theorem lattice_point (v0 : V) (vs : List V) (idx : List ℕ) (hl : idx.length = vs.length) (n : K) :
    v0 + natCombo K idx (vs.map fun v => n⁻¹ • (v - v0)) =
      (1 - (idx.sum : K) / n) • v0 + combo (idx.map fun i : ℕ => (i : K) / n) vs := by
  rw [natCombo_eq_combo]
  have h := combo_edges (K := K) (idx.map fun i : ℕ => (i : K)) vs v0 n⁻¹ (by simp [hl])
  rw [List.map_id'] at h
  have e : ((fun i : K => i * n⁻¹) ∘ fun i : ℕ => (i : K)) = fun i : ℕ => (i : K) / n := by
    funext i; exact (div_eq_mul_inv _ _).symm
  rw [h, List.map_map, e]
  have hs : (idx.map fun i : ℕ => (i : K) / n).sum = (idx.sum : K) / n := by
    simp only [div_eq_mul_inv]
    rw [List.sum_map_mul_right]
    congr 1; simp
  rw [hs, sub_smul, one_smul]
  abel

/-- Points of `make_lattice` on the vertices with numbers `t0 :: ts`: integer barycentric coordinates at
least `c`, supported on these vertices, summing to `n`. -/
theorem mem_makeLattice (v : ℕ → V) (N n c t0 : ℕ) (ts : List ℕ) (hn : 1 ≤ n) (hts : ts ≠ [])
    (ht : (t0 :: ts).Nodup) (hN : ∀ i ∈ t0 :: ts, i < N) (p : V) :
    p ∈ makeLattice K (v t0) (ts.map v) n c ↔
      ∃ β : ℕ → ℕ, (∀ i ∉ t0 :: ts, β i = 0) ∧ (∀ i ∈ t0 :: ts, c ≤ β i) ∧
        ∑ i ∈ Finset.range N, β i = n ∧ p = baryPt K v N n β := by
  have hn0 : (n : K) ≠ 0 := by positivity
  have hlen : 1 ≤ ts.length := List.length_pos_iff.2 hts
  have hcombo : ∀ (ts : List ℕ) (β : ℕ → ℕ), combo ((ts.map β).map fun i : ℕ => (i : K) / n) (ts.map v) =
      (ts.map fun i => ((β i : K) / n) • v i).sum := by
    intro ts β
    induction ts with
    | nil => simp
    | cons a ts ih => simp only [List.map_cons, combo_cons, List.sum_cons, ih]
  have hpt : ∀ β : ℕ → ℕ, (∀ i ∉ t0 :: ts, β i = 0) → ∑ i ∈ Finset.range N, β i = n →
      baryPt K v N n β = v t0 + natCombo K (ts.map β) ((ts.map v).map fun w => (n : K)⁻¹ • (w - v t0)) := by
    intro β h0 hs
    rw [lattice_point _ _ _ (by simp), hcombo, baryPt,
      sum_range_eq_list _ ht N hN _ (by intro i hi; simp [h0 i hi]), List.map_cons, List.sum_cons]
    rw [sum_range_eq_list _ ht N hN _ h0, List.map_cons, List.sum_cons] at hs
    congr 2
    rw [eq_sub_iff_add_eq, ← add_div]
    have : ((β t0 : K) + ((ts.map β).sum : ℕ)) = n := by exact_mod_cast hs
    rw [this, div_self hn0]
  simp only [makeLattice, List.length_map, List.mem_map, lattice_indices_mem n c _ hlen]
  constructor
  · rintro ⟨idx, ⟨h1, h2, h3⟩, rfl⟩
    obtain ⟨β, hβ, hβ0⟩ := exists_map_eq (t0 :: ts) ht ((n - idx.sum) :: idx) (by simp [h1])
    rw [List.map_cons, List.cons.injEq] at hβ
    have hsum : ∑ i ∈ Finset.range N, β i = n := by
      rw [sum_range_eq_list _ ht N hN _ hβ0, List.map_cons, List.sum_cons, hβ.1, hβ.2]; omega
    refine ⟨β, hβ0, ?_, hsum, ?_⟩
    · intro i hi
      rcases List.mem_cons.1 hi with rfl | hi
      · rw [hβ.1]; omega
      · apply h2; rw [← hβ.2]; exact List.mem_map_of_mem hi
    · rw [hpt β hβ0 hsum, hβ.2]
  · rintro ⟨β, h0, hc, hs, rfl⟩
    refine ⟨ts.map β, ⟨by simp, ?_, ?_⟩, (hpt β h0 hs).symm⟩
    · intro x hx
      obtain ⟨i, hi, rfl⟩ := List.mem_map.1 hx
      exact hc i (List.mem_cons_of_mem _ hi)
    · rw [sum_range_eq_list _ ht N hN _ h0, List.map_cons, List.sum_cons] at hs
      have := hc t0 (by simp)
      omega

/-- Integer barycentric coordinates of a point are unique (affinely independent vertices). -/
theorem baryPt_injective (v : ℕ → V) (N n : ℕ) (hn : 1 ≤ n)
    (hind : AffineIndependent K (fun i : Fin N => v i)) (β γ : ℕ → ℕ)
    (hβ : ∑ i ∈ Finset.range N, β i = n) (hγ : ∑ i ∈ Finset.range N, γ i = n)
    (h : baryPt K v N n β = baryPt K v N n γ) : ∀ i < N, β i = γ i := by
  have hn0 : (n : K) ≠ 0 := by positivity
  rw [affineIndependent_iff] at hind
  have := hind Finset.univ (fun i : Fin N => (β i : K) / n - (γ i : K) / n) (by
    rw [Finset.sum_sub_distrib, ← Finset.sum_div, ← Finset.sum_div]
    have e1 : ∑ i : Fin N, (β i : K) = n := by
      rw [Fin.sum_univ_eq_sum_range (fun i => (β i : K)) N]; exact_mod_cast hβ
    have e2 : ∑ i : Fin N, (γ i : K) = n := by
      rw [Fin.sum_univ_eq_sum_range (fun i => (γ i : K)) N]; exact_mod_cast hγ
    rw [e1, e2, sub_self]) (by
    simp only [sub_smul]
    rw [Finset.sum_sub_distrib, sub_eq_zero,
      Fin.sum_univ_eq_sum_range (fun i => ((β i : K) / n) • v i) N,
      Fin.sum_univ_eq_sum_range (fun i => ((γ i : K) / n) • v i) N]
    exact h)
  intro i hi
  have h1 := this ⟨i, hi⟩ (Finset.mem_univ _)
  simp only at h1
  rw [sub_eq_zero, div_left_inj' hn0] at h1
  exact_mod_cast h1

end
end FIAT
