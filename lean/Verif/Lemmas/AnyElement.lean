/-
Ciarlet elements of any value shape, with nodes that may use derivatives: nodes that separate the space give a nodal element.
-/
import Verif.Lemmas.VecElement

namespace FIAT
open MvPolynomial
section
variable {D : ℕ} {Cp : Type} [Fintype Cp]

/-- A field with components indexed by `Cp`, as the functionals see it: component `comp c` is `w c`. -/
noncomputable def fieldC (comp : Cp → List ℕ) (w : Cp → MvPolynomial (Fin D) ℝ) : List ℕ → MvPolynomial (Fin D) ℝ :=
  fun c => ∑ j : Cp, if comp j = c then w j else 0

theorem fieldC_apply [DecidableEq Cp] {comp : Cp → List ℕ} (hc : Function.Injective comp) (w : Cp → MvPolynomial (Fin D) ℝ) (j : Cp) :
    fieldC comp w (comp j) = w j := by
  unfold fieldC
  rw [Finset.sum_eq_single j]
  · simp
  · intro b _ hb
    rw [if_neg fun h => hb (hc h)]
  · simp

theorem fieldC_comb (comp : Cp → List ℕ) {m : ℕ} (a : Fin m → ℝ) (F : Fin m → Cp → MvPolynomial (Fin D) ℝ) :
    fieldC comp (∑ i, a i • F i) = fun c => ∑ i, C (a i) * fieldC comp (F i) c := by
  funext c
  unfold fieldC
  simp only [Finset.sum_apply, Pi.smul_apply, Finset.mul_sum]
  rw [Finset.sum_comm]
  refine Finset.sum_congr rfl fun j _ => ?_
  split_ifs with h
  · exact Finset.sum_congr rfl fun i _ => by rw [smul_eq_C_mul]
  · simp

theorem onFieldC_comb (comp : Cp → List ℕ) {m : ℕ} (l : Functional ℝ (Fin D → ℝ)) (a : Fin m → ℝ)
    (F : Fin m → Cp → MvPolynomial (Fin D) ℝ) :
    l.onField (fieldC comp (∑ i, a i • F i)) = ∑ i, a i * l.onField (fieldC comp (F i)) := by
  rw [← Functional.onField_sum, fieldC_comb]

/-- Specification of a nodal element of any value shape: `tabulate` returns, for every order and every list of points, the
values of all partial derivatives of the basis of the space `V` that is dual to `nodes`. -/
def IsNodalC {N m : ℕ} (comp : Cp → List ℕ) (V : (Cp → MvPolynomial (Fin D) ℝ) → Prop) (nodes : List (Functional ℝ (Fin D → ℝ)))
    (el : PolySet ℝ (Fin D → ℝ) N m Cp) : Prop :=
  ∃ ψ : Fin m → Cp → MvPolynomial (Fin D) ℝ, (∀ i, V (ψ i)) ∧ (∀ w, V w → w ∈ Submodule.span ℝ (Set.range ψ)) ∧
    (∀ (i : ℕ) l, nodes[i]? = some l → ∀ j : Fin m, l.onField (fieldC comp (ψ j)) = if i = (j : ℕ) then 1 else 0) ∧
    ∀ (pts : List (Fin D → ℝ)) (order : ℕ), ∃ res, el.tabulate pts order = some res ∧
      (∀ α, α ∈ Dict.keys res ↔ α.length = D ∧ α.sum ≤ order) ∧
      ∀ α T, Dict.get? res α = some T → ∀ i c (j : ℕ) x, pts[j]? = some x → T i c j = eval x (iterDeriv α (ψ i c))

theorem any_element_nodal [DecidableEq Cp] (hD : 1 ≤ D) {N m : ℕ} (φ : Fin N → MvPolynomial (Fin D) ℝ)
    (comp : Cp → List ℕ) (hcomp : Function.Injective comp)
    (S : PolySet ℝ (Fin D → ℝ) N m Cp) (hsd : S.sd = D) (hb : BaseSpec φ S.base) (hd : DmatSpec φ S.dmats)
    (V : (Cp → MvPolynomial (Fin D) ℝ) → Prop) (hli : LinearIndependent ℝ (S.member φ))
    (hspan : ∀ w, w ∈ Submodule.span ℝ (Set.range (S.member φ)) ↔ V w)
    (nodes : List (Functional ℝ (Fin D → ℝ))) (hlen : nodes.length = m) (hm : 1 ≤ m) (hwf : ∀ l ∈ nodes, l.WF D)
    (hord : (∃ l ∈ nodes, 0 < l.maxDerivOrder) ∨ ∀ l ∈ nodes, l.deriv = [])
    (hsep : ∀ w, V w → (∀ l ∈ nodes, l.onField (fieldC comp w) = 0) → w = 0) :
    ∃ el, ciarletElement (onExpTab N D S.base S.dmats) comp S nodes = some el ∧
      el.sd = D ∧ el.base = S.base ∧ el.dmats = S.dmats ∧ LinearIndependent ℝ (el.member φ) ∧
      (∀ w, w ∈ Submodule.span ℝ (Set.range (el.member φ)) ↔ V w) ∧
      IsNodalC comp V nodes el := by
  have hfield : ∀ (S' : PolySet ℝ (Fin D → ℝ) N m Cp) i, S'.field φ comp i = fieldC comp (S'.member φ i) :=
    fun S' i => by funext c; unfold PolySet.field fieldC; rfl
  have hV : (vandermonde nodes (S.field φ comp)).det ≠ 0 := by
    intro hdet
    obtain ⟨x, hx, hx0⟩ := Matrix.exists_mulVec_eq_zero_iff.2 hdet
    apply hx
    have hw : ∑ i, x i • S.member φ i = 0 := by
      apply hsep
      · rw [← hspan]
        exact (Submodule.mem_span_range_iff_exists_fun ℝ).2 ⟨x, rfl⟩
      · intro l hl
        obtain ⟨i, hi, rfl⟩ := List.getElem_of_mem hl
        have h1 := congrFun hx0 ⟨i, by omega⟩
        rw [Matrix.mulVec, dotProduct] at h1
        rw [onFieldC_comb]
        rw [Pi.zero_apply] at h1
        rw [← h1]
        refine Finset.sum_congr rfl fun j _ => ?_
        rw [vandermonde, Matrix.of_apply]
        simp only [List.getElem?_eq_getElem hi, hfield]
        ring
    funext i
    exact Fintype.linearIndependent_iff.1 hli x hw i
  obtain ⟨el, h1, h2, h3, h4, h5, h6⟩ := ciarlet_nodal φ (onExpTab N D S.base S.dmats) rfl
    (on_exp_tab_spec hD φ S.base hb S.dmats hd) nodes (by rintro rfl; simp at hlen; omega) hwf hord comp hcomp S hlen hV
  have hsd' : el.sd = D := by rw [h4, hsd]
  have hmem : ∀ (a : Fin m → ℝ) (S' : PolySet ℝ (Fin D → ℝ) N m Cp) (w : Cp → MvPolynomial (Fin D) ℝ),
      ∑ i, a i • S'.field φ comp i = fieldC comp w ↔ ∑ i, a i • S'.member φ i = w := by
    intro a S' w
    have e : ∑ i, a i • S'.field φ comp i = fieldC comp (∑ i, a i • S'.member φ i) := by
      rw [fieldC_comb]
      funext c
      simp only [Finset.sum_apply, Pi.smul_apply, hfield, smul_eq_C_mul]
    rw [e]
    constructor
    · intro h
      funext j
      have := congrFun h (comp j)
      rwa [fieldC_apply hcomp, fieldC_apply hcomp] at this
    · rintro rfl; rfl
  have hspan' : ∀ w, w ∈ Submodule.span ℝ (Set.range (el.member φ)) ↔ V w := by
    intro w
    rw [← hspan, Submodule.mem_span_range_iff_exists_fun ℝ, Submodule.mem_span_range_iff_exists_fun ℝ]
    simp only [← hmem]
    rw [← Submodule.mem_span_range_iff_exists_fun ℝ, ← Submodule.mem_span_range_iff_exists_fun ℝ]
    unfold SameSpan at h6
    rw [h6]
  have hnod : ∀ (i : ℕ) l, nodes[i]? = some l → ∀ j : Fin m, l.onField (fieldC comp (el.member φ j)) = if i = (j : ℕ) then 1 else 0 := by
    intro i l hi j
    rw [← hfield]
    exact h5 i l hi j
  refine ⟨el, h1, hsd', h2, h3, ?_, hspan', el.member φ, fun i => (hspan' _).1 (Submodule.subset_span ⟨i, rfl⟩),
    fun w hw => (hspan' w).2 hw, hnod, fun pts order => ?_⟩
  · rw [Fintype.linearIndependent_iff]
    intro a ha i
    obtain ⟨l, hl⟩ : ∃ l, nodes[(i : ℕ)]? = some l := ⟨_, List.getElem?_eq_getElem (by omega)⟩
    have h7 := onFieldC_comb comp l a (el.member φ)
    rw [ha] at h7
    have h8 : l.onField (fieldC comp (0 : Cp → MvPolynomial (Fin D) ℝ)) = 0 := by
      have := onFieldC_comb comp l (0 : Fin 0 → ℝ) (fun _ => 0)
      simpa using this
    rw [h8, Finset.sum_eq_single i] at h7
    · rw [hnod _ l hl, if_pos rfl, mul_one] at h7; exact h7.symm
    · intro b _ hb
      rw [hnod _ l hl, if_neg (fun h => hb (Fin.ext h.symm)), mul_zero]
    · simp
  · obtain ⟨res, r1, -, r2, r3⟩ := tabulate_spec hD φ el hsd' (h2 ▸ hb) (h3 ▸ hd) pts order
    exact ⟨res, r1, r2, r3⟩

/-! ### Scalar elements -/

/-- A scalar polynomial as the functionals see it. -/
noncomputable def scalarField (p : MvPolynomial (Fin D) ℝ) : List ℕ → MvPolynomial (Fin D) ℝ := fun c => if [] = c then p else 0

theorem scalarField_nil (p : MvPolynomial (Fin D) ℝ) : scalarField p [] = p := by simp [scalarField]

/-- Specification of a nodal scalar element of degree `k`: there is a basis `ψ` of `P_k`, dual to `nodes`, and `tabulate` returns,
for every order and every list of points, the values of all partial derivatives of that basis. -/
def IsNodalScalar {N m : ℕ} (k : ℕ) (nodes : List (Functional ℝ (Fin D → ℝ))) (el : PolySet ℝ (Fin D → ℝ) N m Unit) : Prop :=
  ∃ ψ : Fin m → MvPolynomial (Fin D) ℝ, (∀ i, (ψ i).totalDegree ≤ k) ∧
    (∀ p : MvPolynomial (Fin D) ℝ, p.totalDegree ≤ k → p ∈ Submodule.span ℝ (Set.range ψ)) ∧ nodes.length = m ∧
    (∀ (i : ℕ) l, nodes[i]? = some l → ∀ j : Fin m, l.onField (scalarField (ψ j)) = if i = (j : ℕ) then 1 else 0) ∧
    ∀ (pts : List (Fin D → ℝ)) (order : ℕ), ∃ res, el.tabulate pts order = some res ∧
      (∀ α, α ∈ Dict.keys res ↔ α.length = D ∧ α.sum ≤ order) ∧
      ∀ α T, Dict.get? res α = some T → ∀ i c (j : ℕ) x, pts[j]? = some x → T i c j = eval x (iterDeriv α (ψ i))

/-- Specification: a polynomial of degree at most `k` on which every node of `nodes` is 0 is the zero polynomial. -/
def Separates (k : ℕ) (nodes : List (Functional ℝ (Fin D → ℝ))) : Prop :=
  ∀ p : MvPolynomial (Fin D) ℝ, p.totalDegree ≤ k → (∀ l ∈ nodes, l.onField (scalarField p) = 0) → p = 0

theorem functional_element_spec (hD : D = 1 ∨ D = 2 ∨ D = 3) (s : SimplexCell (Fin D → ℝ)) (hs : ProperSimplex ℝ s)
    (hv : Increasing fun i : Fin (D + 1) => s.v i) (k : ℕ) (nodes : List (Functional ℝ (Fin D → ℝ)))
    (hlen : nodes.length = (k + D).choose D) (hwf : ∀ l ∈ nodes, l.WF D)
    (hord : (∃ l ∈ nodes, 0 < l.maxDerivOrder) ∨ ∀ l ∈ nodes, l.deriv = []) (hsep : Separates k nodes) :
    ∃ el, functionalElement s k nodes = some el ∧ IsNodalScalar k nodes el := by
  obtain ⟨mats, h1, φ, hdeg, h2, h3, h4⟩ := on_core hD s hs hv k
  have hmem : (onScalarSet ((k + D).choose D) D (expTab s.verts k) mats).member φ = fun i (_ : Unit) => φ i := by
    funext i c; exact scalar_member φ _ _ i c
  have hcomb : ∀ a : Fin ((k + D).choose D) → ℝ, (∑ i, a i • fun (_ : Unit) => φ i) = fun _ => ∑ i, a i • φ i := by
    intro a; funext u; simp
  obtain ⟨el, e1, -, -, -, -, -, ψ, p1, p2, p3, p4⟩ := any_element_nodal (by omega : 1 ≤ D) φ (fun _ : Unit => ([] : List ℕ)) (fun _ _ _ => rfl)
    (onScalarSet ((k + D).choose D) D (expTab s.verts k) mats) rfl h3 h4 (fun w => (w ()).totalDegree ≤ k)
    (by
      rw [hmem, Fintype.linearIndependent_iff]
      intro a ha i
      rw [hcomb] at ha
      exact Fintype.linearIndependent_iff.1 h2.1 a (congrFun ha ()) i)
    (by
      intro w
      rw [hmem, Submodule.mem_span_range_iff_exists_fun ℝ]
      simp only [hcomb]
      rw [← mem_restrictTotalDegree, ← h2.2, Submodule.mem_span_range_iff_exists_fun ℝ]
      exact exists_congr fun a => ⟨fun h => congrFun h (), fun h => by funext u; exact h⟩)
    nodes hlen (Nat.choose_pos (Nat.le_add_left _ _)) hwf hord
    (by
      intro w hw hz
      funext u
      refine hsep _ hw fun l hl => ?_
      rw [← hz l hl]
      congr 1
      funext c
      simp [scalarField, fieldC])
  refine ⟨el, ?_, fun i => ψ i (), fun i => p1 i, fun p hp => ?_, hlen, fun i l hl j => ?_, fun pts order => ?_⟩
  · unfold functionalElement
    simp only [h1, Option.bind_eq_bind, Option.bind_some]
    convert e1 <;> rfl
  · have := p2 (fun _ => p) hp
    rw [Submodule.mem_span_range_iff_exists_fun ℝ] at this ⊢
    obtain ⟨a, ha⟩ := this
    refine ⟨a, ?_⟩
    have := congrFun ha ()
    simpa using this
  · rw [← p3 i l hl j]
    congr 1
    funext c
    simp [scalarField, fieldC]
  · obtain ⟨res, r1, r2, r3⟩ := p4 pts order
    exact ⟨res, r1, r2, fun α T hT i c j x hx => r3 α T hT i c j x hx⟩

/-- A wrong number of nodes is rejected. -/
theorem functional_element_square (s : SimplexCell (Fin D → ℝ)) (k : ℕ) (nodes : List (Functional ℝ (Fin D → ℝ)))
    (el : PolySet ℝ (Fin D → ℝ) ((k + D).choose D) ((k + D).choose D) Unit) (h : functionalElement s k nodes = some el) :
    nodes.length = (k + D).choose D := by
  unfold functionalElement at h
  simp only [Option.bind_eq_bind, Option.bind_eq_some_iff] at h
  obtain ⟨S, -, h⟩ := h
  unfold ciarletElement at h
  simp only [Option.bind_eq_bind, Option.bind_eq_some_iff] at h
  obtain ⟨M, -, new, h2, -⟩ := h
  unfold ciarletCoeffs at h2
  by_contra hc
  rw [dif_neg hc] at h2
  simp at h2

end
end FIAT
