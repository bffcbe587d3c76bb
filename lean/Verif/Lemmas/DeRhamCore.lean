/-
Tables of finite element functions, and matrices of differential operators between elements.
-/
import Verif.Props.EntityTables
import Verif.Props.EntityTabulate
import Verif.Lemmas.Jets
import Verif.Lemmas.Koszul
import Mathlib.LinearAlgebra.Matrix.ToLin

namespace FIAT
open MvPolynomial
section
variable {D : ℕ} {Cp : Type}

/-- The entry of `el.tabulate(order, [x])` for the multi-index `α`, `order = |α|`: derivative `α` of component `c` of basis
function `i` at `x`. `none`: no such entry. -/
noncomputable def tabEntry {N m : ℕ} (el : PolySet ℝ (Fin D → ℝ) N m Cp) (α : List ℕ) (x : Fin D → ℝ) (i : Fin m) (c : Cp) : Option ℝ :=
  (el.tabulate [x] α.sum).bind fun res => (Dict.get? res α).map fun T => T i c 0

/-- Derivative `α` of component `c` at `x` of the finite element function `∑ a i * (basis function i)`, read off the tables. -/
noncomputable def feValue {N m : ℕ} (el : PolySet ℝ (Fin D → ℝ) N m Cp) (a : Fin m → ℝ) (α : List ℕ) (c : Cp) (x : Fin D → ℝ) : ℝ :=
  ∑ i, a i * (tabEntry el α x i c).getD 0

/-- Every entry a caller can ask for is in the tables. -/
def Tabulated {N m : ℕ} (el : PolySet ℝ (Fin D → ℝ) N m Cp) : Prop :=
  ∀ α x i c, α.length = D → (tabEntry el α x i c).isSome

/-- The multi-index of the value. -/
def noDeriv (D : ℕ) : List ℕ := List.replicate D 0

/-- The basis polynomials behind an element. -/
structure BasisOf {N m : ℕ} (V : (Cp → MvPolynomial (Fin D) ℝ) → Prop) (el : PolySet ℝ (Fin D → ℝ) N m Cp)
    (ψ : Fin m → Cp → MvPolynomial (Fin D) ℝ) : Prop where
  mem : ∀ i, V (ψ i)
  span : ∀ w, V w → ∃ a : Fin m → ℝ, ∑ i, a i • ψ i = w
  inj : ∀ a b : Fin m → ℝ, ∑ i, a i • ψ i = ∑ i, b i • ψ i → a = b
  entry : ∀ α x i c, α.length = D → tabEntry el α x i c = some (eval x (iterDeriv α (ψ i c)))

theorem basisOf_nodal [Fintype Cp] {N m : ℕ} {comp : Cp → List ℕ} {V : (Cp → MvPolynomial (Fin D) ℝ) → Prop}
    {nodes : List (Functional ℝ (Fin D → ℝ))} {el : PolySet ℝ (Fin D → ℝ) N m Cp} (hlen : nodes.length = m)
    (h : IsNodalC comp V nodes el) : ∃ ψ, BasisOf V el ψ := by
  obtain ⟨ψ, h1, h2, h3, h4⟩ := h
  have hdof : ∀ (a : Fin m → ℝ) (i : Fin m) l, nodes[(i : ℕ)]? = some l → l.onField (fieldC comp (∑ j, a j • ψ j)) = a i := by
    intro a i l hl
    rw [onFieldC_comb, Finset.sum_eq_single i]
    · rw [h3 _ l hl, if_pos rfl, mul_one]
    · intro b _ hb
      rw [h3 _ l hl, if_neg fun h => hb (Fin.ext h.symm), mul_zero]
    · simp
  refine ⟨ψ, h1, fun w hw => (Submodule.mem_span_range_iff_exists_fun ℝ).1 (h2 w hw), fun a b hab => ?_, fun α x i c hα => ?_⟩
  · funext i
    obtain ⟨l, hl⟩ : ∃ l, nodes[(i : ℕ)]? = some l := ⟨_, List.getElem?_eq_getElem (by omega)⟩
    rw [← hdof a i l hl, hab, hdof b i l hl]
  · obtain ⟨res, r1, r2, r3⟩ := h4 [x] α.sum
    have hk : α ∈ Dict.keys res := (r2 α).2 ⟨hα, le_rfl⟩
    obtain ⟨T, hT⟩ := Option.isSome_iff_exists.1 (Dict.get?_isSome_iff.2 hk)
    unfold tabEntry
    rw [r1, Option.bind_some, hT, Option.map_some, r3 α T hT i c 0 x rfl]

namespace BasisOf
variable {N m : ℕ} {V : (Cp → MvPolynomial (Fin D) ℝ) → Prop} {el : PolySet ℝ (Fin D → ℝ) N m Cp}
  {ψ : Fin m → Cp → MvPolynomial (Fin D) ℝ}

theorem tabulated (h : BasisOf V el ψ) : Tabulated el := fun α x i c hα => by rw [h.entry α x i c hα]; rfl

theorem feValue_eq (h : BasisOf V el ψ) (a : Fin m → ℝ) (α : List ℕ) (hα : α.length = D) (c : Cp) (x : Fin D → ℝ) :
    feValue el a α c x = eval x (iterDeriv α ((∑ i, a i • ψ i) c)) := by
  have : (∑ i, a i • ψ i) c = ∑ i, C (a i) * ψ i c := by simp only [Finset.sum_apply, Pi.smul_apply, smul_eq_C_mul]
  rw [this, iterDeriv_linear, map_sum]
  unfold feValue
  exact Finset.sum_congr rfl fun i _ => by rw [h.entry α x i c hα, map_mul, eval_C]; rfl

theorem feValue_zero (h : BasisOf V el ψ) (a : Fin m → ℝ) (c : Cp) (x : Fin D → ℝ) :
    feValue el a (noDeriv D) c x = eval x ((∑ i, a i • ψ i) c) := by
  rw [h.feValue_eq a _ (by simp [noDeriv]), noDeriv, iterDeriv_zero]

theorem feValue_unit (h : BasisOf V el ψ) (a : Fin m → ℝ) (j : Fin D) (c : Cp) (x : Fin D → ℝ) :
    feValue el a (unitAlpha D j) c x = eval x (pderiv j ((∑ i, a i • ψ i) c)) := by
  rw [h.feValue_eq a _ (by simp [unitAlpha]), iterDeriv_unit]

end BasisOf

/-- A linear operator between the spaces of two elements has a matrix. -/
theorem operator_matrix {Ca Cb : Type} {Na ma Nb mb : ℕ} {Va : (Ca → MvPolynomial (Fin D) ℝ) → Prop} {Vb : (Cb → MvPolynomial (Fin D) ℝ) → Prop}
    {ea : PolySet ℝ (Fin D → ℝ) Na ma Ca} {eb : PolySet ℝ (Fin D → ℝ) Nb mb Cb} {ψa : Fin ma → Ca → MvPolynomial (Fin D) ℝ}
    {ψb : Fin mb → Cb → MvPolynomial (Fin D) ℝ} (ha : BasisOf Va ea ψa) (hb : BasisOf Vb eb ψb)
    (T : (Ca → MvPolynomial (Fin D) ℝ) →ₗ[ℝ] (Cb → MvPolynomial (Fin D) ℝ)) (hT : ∀ w, Va w → Vb (T w)) :
    ∃ M : Matrix (Fin mb) (Fin ma) ℝ, ∀ a, T (∑ i, a i • ψa i) = ∑ l, (M.mulVec a) l • ψb l := by
  choose G hG using fun i => hb.span _ (hT _ (ha.mem i))
  refine ⟨Matrix.of fun l i => G i l, fun a => ?_⟩
  rw [map_sum]
  simp only [map_smul, ← hG, Matrix.mulVec, dotProduct, Matrix.of_apply, Finset.smul_sum, smul_smul, Finset.sum_smul]
  rw [Finset.sum_comm]
  exact Finset.sum_congr rfl fun l _ => Finset.sum_congr rfl fun i _ => by rw [mul_comm]

theorem operator_ker {Ca Cb : Type} {ma Nb mb : ℕ} {Vb : (Cb → MvPolynomial (Fin D) ℝ) → Prop}
    {eb : PolySet ℝ (Fin D → ℝ) Nb mb Cb} {ψa : Fin ma → Ca → MvPolynomial (Fin D) ℝ}
    {ψb : Fin mb → Cb → MvPolynomial (Fin D) ℝ} (hb : BasisOf Vb eb ψb)
    (T : (Ca → MvPolynomial (Fin D) ℝ) →ₗ[ℝ] (Cb → MvPolynomial (Fin D) ℝ)) (M : Matrix (Fin mb) (Fin ma) ℝ)
    (hM : ∀ a, T (∑ i, a i • ψa i) = ∑ l, (M.mulVec a) l • ψb l) (a : Fin ma → ℝ) : M.mulVec a = 0 ↔ T (∑ i, a i • ψa i) = 0 := by
  rw [hM]
  refine ⟨fun h => by rw [h]; simp, fun h => hb.inj _ _ ?_⟩
  rw [h]; simp

/-- Exactness of the matrices of two operators from exactness of the operators. -/
theorem operator_exact {Ca Cb Cc : Type} {Na ma Nb mb Nc mc : ℕ} {Va : (Ca → MvPolynomial (Fin D) ℝ) → Prop}
    {Vb : (Cb → MvPolynomial (Fin D) ℝ) → Prop} {Vc : (Cc → MvPolynomial (Fin D) ℝ) → Prop}
    {ea : PolySet ℝ (Fin D → ℝ) Na ma Ca} {eb : PolySet ℝ (Fin D → ℝ) Nb mb Cb} {ec : PolySet ℝ (Fin D → ℝ) Nc mc Cc}
    {ψa : Fin ma → Ca → MvPolynomial (Fin D) ℝ} {ψb : Fin mb → Cb → MvPolynomial (Fin D) ℝ} {ψc : Fin mc → Cc → MvPolynomial (Fin D) ℝ}
    (ha : BasisOf Va ea ψa) (hb : BasisOf Vb eb ψb) (hc : BasisOf Vc ec ψc)
    (S : (Ca → MvPolynomial (Fin D) ℝ) →ₗ[ℝ] (Cb → MvPolynomial (Fin D) ℝ)) (M : Matrix (Fin mb) (Fin ma) ℝ)
    (hM : ∀ a, S (∑ i, a i • ψa i) = ∑ l, (M.mulVec a) l • ψb l)
    (T : (Cb → MvPolynomial (Fin D) ℝ) →ₗ[ℝ] (Cc → MvPolynomial (Fin D) ℝ)) (L : Matrix (Fin mc) (Fin mb) ℝ)
    (hL : ∀ a, T (∑ i, a i • ψb i) = ∑ l, (L.mulVec a) l • ψc l)
    (hTS : ∀ w, T (S w) = 0) (hex : ∀ w, Vb w → T w = 0 → ∃ u, Va u ∧ S u = w) (hVb : ∀ b : Fin mb → ℝ, Vb (∑ i, b i • ψb i)) (b : Fin mb → ℝ) :
    L.mulVec b = 0 ↔ ∃ a, M.mulVec a = b := by
  rw [operator_ker hc T L hL]
  constructor
  · intro h
    obtain ⟨u, hu, hS⟩ := hex _ (hVb b) h
    obtain ⟨a, rfl⟩ := ha.span u hu
    exact ⟨a, hb.inj _ _ (by rw [← hM, hS])⟩
  · rintro ⟨a, rfl⟩
    rw [← hM, hTS]

theorem operator_onto {Ca Cb : Type} {Na ma Nb mb : ℕ} {Va : (Ca → MvPolynomial (Fin D) ℝ) → Prop} {Vb : (Cb → MvPolynomial (Fin D) ℝ) → Prop}
    {ea : PolySet ℝ (Fin D → ℝ) Na ma Ca} {eb : PolySet ℝ (Fin D → ℝ) Nb mb Cb} {ψa : Fin ma → Ca → MvPolynomial (Fin D) ℝ}
    {ψb : Fin mb → Cb → MvPolynomial (Fin D) ℝ} (ha : BasisOf Va ea ψa) (hb : BasisOf Vb eb ψb)
    (T : (Ca → MvPolynomial (Fin D) ℝ) →ₗ[ℝ] (Cb → MvPolynomial (Fin D) ℝ)) (M : Matrix (Fin mb) (Fin ma) ℝ)
    (hM : ∀ a, T (∑ i, a i • ψa i) = ∑ l, (M.mulVec a) l • ψb l)
    (honto : ∀ w, Vb w → ∃ u, Va u ∧ T u = w) (hVb : ∀ b : Fin mb → ℝ, Vb (∑ i, b i • ψb i)) (b : Fin mb → ℝ) : ∃ a, M.mulVec a = b := by
  obtain ⟨u, hu, hS⟩ := honto _ (hVb b)
  obtain ⟨a, rfl⟩ := ha.span u hu
  exact ⟨a, hb.inj _ _ (by rw [← hM, hS])⟩

end
end FIAT
