/-
C76: fields from two products.
-/
import Verif.Props.RtcSpec
import Verif.Props.RtcDofs

namespace FIAT
open MvPolynomial

theorem eval_prodBasis {n : ℕ} (f g : ℕ → MvPolynomial (Fin 1) ℝ) (x : Fin 2 → ℝ) {a b : ℕ} (hb : b < n) :
    eval x (prodBasis n f g (a * n + b) : MvPolynomial (Fin 2) ℝ) = eval (fun _ => x 0) (f a) * eval (fun _ => x 1) (g b) := by
  have h := eval_prodPoly (m := 1) (n := 1) (f a) (g b) x
  have e1 : (x ∘ Fin.castAdd 1 : Fin 1 → ℝ) = fun _ => x 0 := by
    funext i
    obtain rfl : i = 0 := Subsingleton.elim _ _
    rfl
  have e2 : (x ∘ Fin.natAdd 1 : Fin 1 → ℝ) = fun _ => x 1 := by
    funext i
    obtain rfl : i = 0 := Subsingleton.elim _ _
    rfl
  rw [e1, e2] at h
  unfold prodBasis
  rw [(div_pair hb).1, (div_pair hb).2]
  exact h

/-- The trace on the sides `x = 0`, `x = 1` of a product with a Lagrange element in `x`. -/
theorem trace_left {N n v : ℕ} {f g : ℕ → MvPolynomial (Fin 1) ℝ} {x : Fin 2 → ℝ} (hv : v < N)
    (hf : ∀ j < N, eval (fun _ : Fin 1 => x 0) (f j) = if v = j then 1 else 0) (u : ℕ → ℝ) :
    ∑ r ∈ Finset.range (N * n), u r * eval x (prodBasis n f g r : MvPolynomial (Fin 2) ℝ) =
      ∑ b ∈ Finset.range n, u (v * n + b) * eval (fun _ => x 1) (g b) := by
  rw [sum_range_mul', Finset.sum_eq_single v]
  · refine Finset.sum_congr rfl fun b hb => ?_
    rw [eval_prodBasis f g x (Finset.mem_range.1 hb), hf v hv, if_pos rfl, one_mul]
  · intro a ha hav
    refine Finset.sum_eq_zero fun b hb => ?_
    rw [eval_prodBasis f g x (Finset.mem_range.1 hb), hf a (Finset.mem_range.1 ha), if_neg (Ne.symm hav), zero_mul, mul_zero]
  · intro h; exact absurd (Finset.mem_range.2 hv) h

/-- The trace on the sides `y = 0`, `y = 1` of a product with a Lagrange element in `y`. -/
theorem trace_right {N n v : ℕ} {f g : ℕ → MvPolynomial (Fin 1) ℝ} {x : Fin 2 → ℝ} (hv : v < N)
    (hf : ∀ j < N, eval (fun _ : Fin 1 => x 1) (f j) = if v = j then 1 else 0) (u : ℕ → ℝ) :
    ∑ r ∈ Finset.range (n * N), u r * eval x (prodBasis N g f r : MvPolynomial (Fin 2) ℝ) =
      ∑ b ∈ Finset.range n, u (b * N + v) * eval (fun _ => x 0) (g b) := by
  rw [sum_range_mul']
  refine Finset.sum_congr rfl fun b _ => ?_
  rw [Finset.sum_eq_single v]
  · rw [eval_prodBasis g f x hv, hf v hv, if_pos rfl, mul_one]
  · intro a ha hav
    rw [eval_prodBasis g f x (Finset.mem_range.1 ha), hf a (Finset.mem_range.1 ha), if_neg (Ne.symm hav), mul_zero, mul_zero]
  · intro h; exact absurd (Finset.mem_range.2 hv) h

theorem sum_map_range (n : ℕ) (h : ℕ → ℕ) (u : ℕ → ℝ) (F : ℕ → ℝ) {l : List ℕ} (hl : l = (List.range n).map h) :
    ∑ j : Fin l.length, u l[j] * F j = ∑ j ∈ Finset.range n, u (h j) * F j := by
  subst hl
  rw [Finset.sum_range fun j => u (h j) * F j]
  refine Fintype.sum_equiv (finCongr (by simp)) _ _ fun j => ?_
  simp

/-- Sums over the fields of two elements. -/
theorem sum_append (N M : ℕ) {α : Type} (w w' : ℕ → α) (F : ℕ → α → MvPolynomial (Fin 2) ℝ) :
    ∑ r ∈ Finset.range (N + M), F r (appendFields N w w' r) =
      ∑ r ∈ Finset.range N, F r (w r) + ∑ r ∈ Finset.range M, F (N + r) (w' r) := by
  rw [Finset.sum_range_add]
  congr 1
  · refine Finset.sum_congr rfl fun r hr => ?_
    rw [appendFields, if_pos (Finset.mem_range.1 hr)]
  · refine Finset.sum_congr rfl fun r _ => ?_
    rw [appendFields, if_neg (by omega), Nat.add_sub_cancel_left]

theorem fieldAt_append (N M : ℕ) (φ χ : ℕ → MvPolynomial (Fin 2) ℝ) (b b' : Fin 2 → ℝ) (u : ℕ → ℝ) (x : Fin 2 → ℝ) (c : Fin 2) :
    fieldAt (N + M) (appendFields N (fun r c => C (b c) * φ r) (fun r c => C (b' c) * χ r)) u x c =
      b c * ∑ r ∈ Finset.range N, u r * eval x (φ r) + b' c * ∑ r ∈ Finset.range M, u (N + r) * eval x (χ r) := by
  unfold fieldAt
  rw [Finset.sum_range_add, Finset.mul_sum, Finset.mul_sum]
  congr 1
  · refine Finset.sum_congr rfl fun r hr => ?_
    rw [appendFields, if_pos (Finset.mem_range.1 hr), map_mul, eval_C]
    ring
  · refine Finset.sum_congr rfl fun r _ => ?_
    rw [appendFields, if_neg (by omega), Nat.add_sub_cancel_left, map_mul, eval_C]
    ring

/-- Two families of scalar functions, in different components, form a basis. -/
theorem append_basis {N M : ℕ} {φ χ : ℕ → MvPolynomial (Fin 2) ℝ} {a : Fin 2 → Fin 2 → ℕ} {b b' : Fin 2 → ℝ} {p q : Fin 2} (hpq : p ≠ q)
    (hp : b p ≠ 0) (hq : b q = 0) (hp' : b' p = 0) (hq' : b' q ≠ 0) (hφ : SpansDeg N φ (a p)) (hχ : SpansDeg M χ (a q))
    (iφ : ∀ u : ℕ → ℝ, ∑ r ∈ Finset.range N, C (u r) * φ r = 0 → ∀ r < N, u r = 0)
    (iχ : ∀ u : ℕ → ℝ, ∑ r ∈ Finset.range M, C (u r) * χ r = 0 → ∀ r < M, u r = 0) :
    IsFieldBasis (N + M) (appendFields N (fun r c => C (b c) * φ r) (fun r c => C (b' c) * χ r)) a := by
  have hsum : ∀ (u : ℕ → ℝ) (c : Fin 2), ∑ r ∈ Finset.range (N + M), C (u r) *
      appendFields (α := Fin 2 → MvPolynomial (Fin 2) ℝ) N (fun r c => C (b c) * φ r) (fun r c => C (b' c) * χ r) r c =
      ∑ r ∈ Finset.range N, C (b c * u r) * φ r + ∑ r ∈ Finset.range M, C (b' c * u (N + r)) * χ r := by
    intro u c
    rw [sum_append N M _ _ fun r (y : Fin 2 → MvPolynomial (Fin 2) ℝ) => C (u r) * y c]
    congr 1 <;> refine Finset.sum_congr rfl fun r _ => ?_ <;> rw [C_mul] <;> ring
  have hcase : ∀ c : Fin 2, c = p ∨ c = q := by omega
  have zφ : ∀ u : ℕ → ℝ, ∑ r ∈ Finset.range N, C (0 * u r) * φ r = 0 := fun u => Finset.sum_eq_zero fun r _ => by simp
  have zχ : ∀ u : ℕ → ℝ, ∑ r ∈ Finset.range M, C (0 * u r) * χ r = 0 := fun u => Finset.sum_eq_zero fun r _ => by simp
  refine ⟨fun v => ⟨fun h => ?_, fun ⟨u, hu⟩ => ?_⟩, fun u hu r hr => ?_⟩
  · obtain ⟨u1, h1⟩ := (hφ (v p)).1 (h p)
    obtain ⟨u2, h2⟩ := (hχ (v q)).1 (h q)
    refine ⟨fun r => if r < N then (b p)⁻¹ * u1 r else (b' q)⁻¹ * u2 (r - N), fun c => ?_⟩
    rw [hsum]
    rcases hcase c with rfl | rfl
    · rw [hp', zχ fun r => _, add_zero, h1]
      refine Finset.sum_congr rfl fun r hr => ?_
      beta_reduce
      rw [if_pos (Finset.mem_range.1 hr), mul_inv_cancel_left₀ hp]
    · rw [hq, zφ fun r => _, zero_add, h2]
      refine Finset.sum_congr rfl fun r _ => ?_
      beta_reduce
      rw [if_neg (by omega), Nat.add_sub_cancel_left, mul_inv_cancel_left₀ hq']
  · intro c
    rcases hcase c with rfl | rfl
    · refine (hφ _).2 ⟨fun r => b c * u r, ?_⟩
      rw [hu, hsum, hp', zχ fun r => _, add_zero]
    · refine (hχ _).2 ⟨fun r => b' c * u (N + r), ?_⟩
      rw [hu, hsum, hq, zφ fun r => _, zero_add]
  · by_cases hlt : r < N
    · have := hu p
      rw [hsum, hp', zχ fun r => _, add_zero] at this
      have := iφ (fun r => b p * u r) this r hlt
      exact (mul_eq_zero.1 this).resolve_left hp
    · have := hu q
      rw [hsum, hq, zφ fun r => _, zero_add] at this
      have := iχ (fun r => b' q * u (N + r)) this (r - N) (by omega)
      have := (mul_eq_zero.1 this).resolve_left hq'
      rwa [Nat.add_sub_cancel' (by omega)] at this

/-- Nodal functions are linearly independent. -/
theorem nodalTab_independent {E : TabElem ℝ ℝ} {ids : EntityIds Key} {nodes : List (List ℝ)} {φ : ℕ → MvPolynomial (Fin E.sd) ℝ}
    {emb : Key → ℕ → List ℝ → Fin E.sd → ℝ} (h : IsNodalTab E ids nodes φ emb) (u : ℕ → ℝ)
    (hu : ∑ r ∈ Finset.range E.dim, C (u r) * φ r = 0) : ∀ r < E.dim, u r = 0 := by
  intro r hr
  have hr' : r < nodes.length := by rw [h.nodes_len.1]; exact hr
  have := congrArg (eval (vecOf nodes[r] : Fin E.sd → ℝ)) hu
  rw [map_sum, map_zero, Finset.sum_eq_single r] at this
  · rw [map_mul, eval_C, h.nodal r _ (List.getElem?_eq_getElem hr') r hr, if_pos rfl, mul_one] at this
    exact this
  · intro j hj hjr
    rw [map_mul, h.nodal r _ (List.getElem?_eq_getElem hr') j (Finset.mem_range.1 hj), if_neg (Ne.symm hjr), mul_zero]
  · intro hh; exact absurd (Finset.mem_range.2 hr) hh

end FIAT
