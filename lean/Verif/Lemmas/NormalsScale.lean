/-
Cells that are not tiny (C66).
-/
import Verif.Lemmas.Volumes
import Mathlib.Algebra.Order.Chebyshev

namespace FIAT
section
variable {D : ℕ}

/-- Specification: the vertices of the cell are affinely independent and not too close, with the tolerance `1e-10` of the code: for the edges
`v_i - v_0` and numbers `c_i`, `|∑ c_i (v_i - v_0)|` is larger than `1e-10 * sqrt (D + 1) * |c|`. -/
def LargeEnough (s : SimplexCell (Fin D → ℝ)) : Prop :=
  ∀ c : Fin D → ℝ, c ≠ 0 → 1e-20 * (D + 1) * ∑ i, c i ^ 2 < ∑ j, (∑ i : Fin D, c i * (s.v ((i : ℕ) + 1) j - s.v 0 j)) ^ 2

theorem notTiny_of_large {n : ℕ} {v : Fin (D + 1) → Fin D → ℝ}
    (hv : ∀ c : Fin D → ℝ, c ≠ 0 → 1e-20 * (D + 1) * ∑ i, c i ^ 2 < ∑ j, (∑ i : Fin D, c i * (v i.succ j - v 0 j)) ^ 2)
    (τ : Fin (n + 1) → Fin (D + 1)) (hτ : Function.Injective τ) : NotTiny (List.ofFn fun i => v (τ i)) := by
  rw [notTiny_ofFn]
  intro c hc
  let C : Fin (D + 1) → ℝ := fun k => ∑ i, c i * ((if τ i.succ = k then 1 else 0) - if τ 0 = k then 1 else 0)
  have hsum : ∑ k, C k = 0 := by
    simp only [C]
    rw [Finset.sum_comm]
    refine Finset.sum_eq_zero fun i _ => ?_
    rw [← Finset.mul_sum, Finset.sum_sub_distrib]
    simp
  have hcomb : ∀ f : Fin (D + 1) → ℝ, ∑ k, C k * f k = ∑ i, c i * (f (τ i.succ) - f (τ 0)) := by
    intro f
    simp only [C, Finset.sum_mul]
    rw [Finset.sum_comm]
    refine Finset.sum_congr rfl fun i _ => ?_
    simp only [mul_assoc]
    rw [← Finset.mul_sum]
    simp [sub_mul, Finset.sum_sub_distrib]
  have hCi : ∀ i : Fin n, C (τ i.succ) = c i := by
    intro i
    simp only [C]
    rw [Finset.sum_eq_single i]
    · rw [if_pos rfl, if_neg (fun h => absurd (hτ h) (Fin.succ_ne_zero i).symm)]; ring
    · intro b _ hb
      rw [if_neg (fun h => hb (Fin.succ_injective _ (hτ h))), if_neg (fun h => absurd (hτ h) (Fin.succ_ne_zero i).symm)]; ring
    · simp
  have hge : ∑ i, c i ^ 2 ≤ ∑ k, C k ^ 2 := by
    have hinj : Function.Injective fun i : Fin n => τ i.succ := fun a b h => Fin.succ_injective _ (hτ h)
    calc ∑ i, c i ^ 2 = ∑ i : Fin n, C (τ i.succ) ^ 2 := Finset.sum_congr rfl fun i _ => by rw [hCi]
      _ = ∑ k ∈ Finset.univ.image (fun i : Fin n => τ i.succ), C k ^ 2 := (Finset.sum_image (f := fun k => C k ^ 2) fun a _ b _ h => hinj h).symm
      _ ≤ _ := Finset.sum_le_sum_of_subset_of_nonneg (Finset.subset_univ _) fun k _ _ => sq_nonneg _
  rw [Fin.sum_univ_succ] at hsum hge
  have h0 : C 0 ^ 2 ≤ D * ∑ k : Fin D, C k.succ ^ 2 := by
    have := sq_sum_le_card_mul_sum_sq (s := Finset.univ) (f := fun k : Fin D => C k.succ)
    rw [Finset.card_univ, Fintype.card_fin] at this
    have e : C 0 = -∑ k : Fin D, C k.succ := by linarith
    rw [e, neg_sq]
    exact this
  have hne : (fun k : Fin D => C k.succ) ≠ 0 := by
    intro hz
    have hz' : ∀ k : Fin D, C k.succ = 0 := fun k => congrFun hz k
    have hall : ∀ k, C k = 0 := by
      intro k
      refine Fin.cases ?_ hz' k
      simpa [hz'] using hsum
    apply hc
    funext i
    rw [← hCi, hall]; rfl
  have h1 := hv _ hne
  have h2 : ∀ j, ∑ i : Fin D, C i.succ * (v i.succ j - v 0 j) = ∑ i, c i * (v (τ i.succ) j - v (τ 0) j) := by
    intro j
    rw [← hcomb fun k => v k j, Fin.sum_univ_succ]
    simp only [mul_sub, Finset.sum_sub_distrib]
    rw [← Finset.sum_mul]
    linear_combination (-v 0 j) * hsum
  simp only [h2] at h1
  refine lt_of_le_of_lt ?_ h1
  nlinarith

variable {s : SimplexCell (Fin D → ℝ)}

theorem LargeEnough.entity (hs : ProperSimplex ℝ s) (hl : LargeEnough s) {d e : ℕ} {t : List ℕ} (h : HasEntity s.topo d e t) :
    NotTiny (t.map s.v) := by
  obtain ⟨τ, h1, h2, h3, -⟩ := entity_tuple hs h
  have := notTiny_of_large (v := fun i : Fin (D + 1) => s.v i) hl (fun j => ⟨τ j, h2 j⟩) (fun a b hab => h1 (Fin.mk.inj hab))
  rw [h3, List.map_ofFn]
  exact this

theorem LargeEnough.cell (hs : ProperSimplex ℝ s) (hl : LargeEnough s) : NotTiny s.verts := by
  have := notTiny_of_large (v := fun i : Fin (D + 1) => s.v i) hl id Function.injective_id
  rwa [verts_ofFn s hs.2.1 hs.1]

/-- Cells with orthogonal edges of the same length are not tiny. -/
theorem largeEnough_of_edges (hs : D ≤ 1000) {r : ℝ} (hr : 1e-3 ≤ r) (h : ∀ i j : Fin D, s.v ((i : ℕ) + 1) j - s.v 0 j = if i = j then r else 0) :
    LargeEnough s := by
  intro c hc
  have h1 : ∀ j, ∑ i : Fin D, c i * (s.v ((i : ℕ) + 1) j - s.v 0 j) = c j * r := by
    intro j
    simp [h]
  simp only [h1, mul_pow]
  rw [← Finset.sum_mul]
  have hpos : 0 < ∑ i, c i ^ 2 := by
    rcases lt_or_eq_of_le (Finset.sum_nonneg fun j (_ : j ∈ Finset.univ) => sq_nonneg (c j)) with hp | hp
    · exact hp
    · exfalso
      apply hc
      funext i
      have := (Finset.sum_eq_zero_iff_of_nonneg fun j (_ : j ∈ Finset.univ) => sq_nonneg (c j)).1 hp.symm i (Finset.mem_univ i)
      exact pow_eq_zero_iff (two_ne_zero) |>.1 this
  have hD : (D : ℝ) ≤ 1000 := by exact_mod_cast hs
  have h2 : 1e-20 * ((D : ℝ) + 1) < r ^ 2 := by nlinarith
  nlinarith

end
end FIAT
