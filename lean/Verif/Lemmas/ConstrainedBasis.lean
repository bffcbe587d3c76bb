/-
The basis functions of an element dual to the leading nodes span the fields on which the remaining nodes vanish (C60, C61, C62).
-/
import Verif.Lemmas.AnyElement

namespace FIAT
open MvPolynomial
section
variable {D : ℕ} {Cp : Type} [Fintype Cp]

/-- Specification: `tabulate` returns, for every order and every list of points, the values of all partial derivatives of `ψ`, and
`ψ` is the basis of the space `V` that is dual to `nodes`. -/
def IsNodalBasisC {N m : ℕ} (comp : Cp → List ℕ) (V : (Cp → MvPolynomial (Fin D) ℝ) → Prop) (nodes : List (Functional ℝ (Fin D → ℝ)))
    (el : PolySet ℝ (Fin D → ℝ) N m Cp) (ψ : Fin m → Cp → MvPolynomial (Fin D) ℝ) : Prop :=
  (∀ i, V (ψ i)) ∧ (∀ w, V w → w ∈ Submodule.span ℝ (Set.range ψ)) ∧
    (∀ (i : ℕ) l, nodes[i]? = some l → ∀ j : Fin m, l.onField (fieldC comp (ψ j)) = if i = (j : ℕ) then 1 else 0) ∧
    ∀ (pts : List (Fin D → ℝ)) (order : ℕ), ∃ res, el.tabulate pts order = some res ∧
      (∀ α, α ∈ Dict.keys res ↔ α.length = D ∧ α.sum ≤ order) ∧
      ∀ α T, Dict.get? res α = some T → ∀ i c (j : ℕ) x, pts[j]? = some x → T i c j = eval x (iterDeriv α (ψ i c))

theorem IsNodalC.basis {N m : ℕ} {comp : Cp → List ℕ} {V : (Cp → MvPolynomial (Fin D) ℝ) → Prop} {nodes : List (Functional ℝ (Fin D → ℝ))}
    {el : PolySet ℝ (Fin D → ℝ) N m Cp} (h : IsNodalC comp V nodes el) : ∃ ψ, IsNodalBasisC comp V nodes el ψ := h

theorem constrained_span {N m : ℕ} {comp : Cp → List ℕ} {V : (Cp → MvPolynomial (Fin D) ℝ) → Prop}
    {nodes : List (Functional ℝ (Fin D → ℝ))} {el : PolySet ℝ (Fin D → ℝ) N m Cp} {ψ : Fin m → Cp → MvPolynomial (Fin D) ℝ}
    (h : IsNodalBasisC comp V nodes el ψ) (hm : nodes.length = m) (hadd : ∀ w w', V w → V w' → V (w + w')) (hsm : ∀ (c : ℝ) w, V w → V (c • w))
    (h0 : V 0) (k : ℕ) (w : Cp → MvPolynomial (Fin D) ℝ) :
    w ∈ Submodule.span ℝ {f | ∃ i : Fin m, (i : ℕ) < k ∧ f = ψ i} ↔
      V w ∧ ∀ (i : ℕ) l, k ≤ i → nodes[i]? = some l → l.onField (fieldC comp w) = 0 := by
  obtain ⟨h1, h2, h3, -⟩ := h
  have hval : ∀ (a : Fin m → ℝ) (i : ℕ) (hi : i < m) l, nodes[i]? = some l → l.onField (fieldC comp (∑ j, a j • ψ j)) = a ⟨i, hi⟩ := by
    intro a i hi l hl
    rw [onFieldC_comb, Finset.sum_eq_single (⟨i, hi⟩ : Fin m)]
    · rw [h3 i l hl]; simp
    · intro j _ hj
      rw [h3 i l hl, if_neg (fun h => hj (Fin.ext h.symm)), mul_zero]
    · simp
  constructor
  · intro hw
    have hV : ∀ w, w ∈ Submodule.span ℝ {f | ∃ i : Fin m, (i : ℕ) < k ∧ f = ψ i} → ∃ a : Fin m → ℝ, w = ∑ j, a j • ψ j ∧ ∀ j : Fin m, k ≤ (j : ℕ) → a j = 0 := by
      intro w hw
      induction hw using Submodule.span_induction with
      | mem x hx =>
        obtain ⟨i, hi, rfl⟩ := hx
        refine ⟨Pi.single i 1, ?_, fun j hj => ?_⟩
        · rw [Finset.sum_eq_single i]
          · simp
          · intro j _ hj; simp [hj]
          · simp
        · rw [Pi.single_apply, if_neg]
          rintro rfl
          omega
      | zero => exact ⟨0, by simp, fun _ _ => rfl⟩
      | add x y _ _ hx hy =>
        obtain ⟨a, rfl, ha⟩ := hx
        obtain ⟨b, rfl, hb⟩ := hy
        exact ⟨a + b, by simp [add_smul, Finset.sum_add_distrib], fun j hj => by simp [ha j hj, hb j hj]⟩
      | smul c x _ hx =>
        obtain ⟨a, rfl, ha⟩ := hx
        exact ⟨c • a, by simp [Finset.smul_sum, mul_smul], fun j hj => by simp [ha j hj]⟩
    obtain ⟨a, rfl, ha⟩ := hV w hw
    constructor
    · have : ∀ t : Finset (Fin m), V (∑ j ∈ t, a j • ψ j) := by
        intro t
        induction t using Finset.induction_on with
        | empty => simpa using h0
        | insert i t hi ih =>
          rw [Finset.sum_insert hi]
          exact hadd _ _ (hsm _ _ (h1 i)) ih
      exact this _
    · intro i l hi hl
      have hlt : i < m := by rw [← hm]; exact (List.getElem?_eq_some_iff.1 hl).1
      rw [hval a i hlt l hl]
      exact ha _ hi
  · rintro ⟨hw, hz⟩
    obtain ⟨a, rfl⟩ := (Submodule.mem_span_range_iff_exists_fun ℝ).1 (h2 w hw)
    refine Submodule.sum_mem _ fun j _ => ?_
    by_cases hj : (j : ℕ) < k
    · exact Submodule.smul_mem _ _ (Submodule.subset_span ⟨j, hj, rfl⟩)
    · have hlt : (j : ℕ) < nodes.length := by rw [hm]; exact j.2
      have := hz j _ (by omega) (List.getElem?_eq_getElem hlt)
      rw [hval a j j.2 _ (List.getElem?_eq_getElem hlt)] at this
      have this' : a j = 0 := this
      rw [this', zero_smul]
      exact Submodule.zero_mem _

end
end FIAT
