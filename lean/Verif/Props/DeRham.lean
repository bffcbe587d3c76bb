/-
C72: the discrete de Rham complexes. Gradient, curl and divergence take the basis functions of `Lagrange`, `Nedelec`,
`RaviartThomas` (or `NedelecSecondKind`, `BrezziDouglasMarini`) into the space of the next element, and the sequence is exact.
Everything is stated on the tables that `tabulate` returns.
-/
import Verif.Lemmas.DeRhamCore
import Verif.Lemmas.AffinePoly
import Verif.Model.DiscLagrange
import Verif.Props.Taylor
import Verif.Props.Discontinuous
import Verif.Props.RTElement
import Verif.Props.NedelecElement
import Verif.Props.BDMElement
import Verif.Props.Nedelec2Element

namespace FIAT
open MvPolynomial

/-! ### Specification -/

section spec
variable {D : ℕ}

/-- `G` is the matrix of the gradient from the scalar element `L` to the vector element `N`: with coefficients `a`, partial
derivative `j` of the function of `L` is component `j` of the function of `N` with coefficients `G a`, at every point. -/
def GradMatrix {nL mL nN mN : ℕ} (L : PolySet ℝ (Fin D → ℝ) nL mL Unit) (N : PolySet ℝ (Fin D → ℝ) nN mN (Fin D))
    (G : Matrix (Fin mN) (Fin mL) ℝ) : Prop :=
  ∀ a x (j : Fin D), feValue L a (unitAlpha D j) () x = feValue N (G.mulVec a) (noDeriv D) j x

/-- `C` is the matrix of the curl in space. -/
def CurlMatrix {nN mN nR mR : ℕ} (N : PolySet ℝ (Fin 3 → ℝ) nN mN (Fin 3)) (R : PolySet ℝ (Fin 3 → ℝ) nR mR (Fin 3))
    (C : Matrix (Fin mR) (Fin mN) ℝ) : Prop :=
  ∀ b x, feValue N b [0, 1, 0] 2 x - feValue N b [0, 0, 1] 1 x = feValue R (C.mulVec b) (noDeriv 3) 0 x ∧
    feValue N b [0, 0, 1] 0 x - feValue N b [1, 0, 0] 2 x = feValue R (C.mulVec b) (noDeriv 3) 1 x ∧
    feValue N b [1, 0, 0] 1 x - feValue N b [0, 1, 0] 0 x = feValue R (C.mulVec b) (noDeriv 3) 2 x

/-- `B` is the matrix of the divergence. -/
def DivMatrix {nR mR nQ mQ : ℕ} (R : PolySet ℝ (Fin D → ℝ) nR mR (Fin D)) (Q : PolySet ℝ (Fin D → ℝ) nQ mQ Unit)
    (B : Matrix (Fin mQ) (Fin mR) ℝ) : Prop :=
  ∀ c x, ∑ j : Fin D, feValue R c (unitAlpha D j) j x = feValue Q (B.mulVec c) (noDeriv D) () x

/-- `C` is the matrix of the scalar curl `∂₀ w₁ - ∂₁ w₀` in the plane. -/
def ScalarCurlMatrix {nN mN nQ mQ : ℕ} (N : PolySet ℝ (Fin 2 → ℝ) nN mN (Fin 2)) (Q : PolySet ℝ (Fin 2 → ℝ) nQ mQ Unit)
    (C : Matrix (Fin mQ) (Fin mN) ℝ) : Prop :=
  ∀ b x, feValue N b [1, 0] 1 x - feValue N b [0, 1] 0 x = feValue Q (C.mulVec b) (noDeriv 2) () x

/-- `G` is the matrix of the rotated gradient `(∂₁ p, -∂₀ p)` in the plane. -/
def RotMatrix {nL mL nR mR : ℕ} (L : PolySet ℝ (Fin 2 → ℝ) nL mL Unit) (R : PolySet ℝ (Fin 2 → ℝ) nR mR (Fin 2))
    (G : Matrix (Fin mR) (Fin mL) ℝ) : Prop :=
  ∀ a x, feValue L a [0, 1] () x = feValue R (G.mulVec a) (noDeriv 2) 0 x ∧ - feValue L a [1, 0] () x = feValue R (G.mulVec a) (noDeriv 2) 1 x

/-- The coefficients `a` are those of a constant. -/
def ConstantFE {n m : ℕ} (L : PolySet ℝ (Fin D → ℝ) n m Unit) (a : Fin m → ℝ) : Prop := ∃ t, ∀ x, feValue L a (noDeriv D) () x = t

/-- `L → N → R → Q` is an exact sequence under gradient, curl and divergence. -/
def DeRham3 {nL mL nN mN nR mR nQ mQ : ℕ} (L : PolySet ℝ (Fin 3 → ℝ) nL mL Unit) (N : PolySet ℝ (Fin 3 → ℝ) nN mN (Fin 3))
    (R : PolySet ℝ (Fin 3 → ℝ) nR mR (Fin 3)) (Q : PolySet ℝ (Fin 3 → ℝ) nQ mQ Unit) : Prop :=
  (Tabulated L ∧ Tabulated N ∧ Tabulated R ∧ Tabulated Q) ∧
  ∃ (G : Matrix (Fin mN) (Fin mL) ℝ) (C : Matrix (Fin mR) (Fin mN) ℝ) (B : Matrix (Fin mQ) (Fin mR) ℝ),
    GradMatrix L N G ∧ CurlMatrix N R C ∧ DivMatrix R Q B ∧
    (∀ a, G.mulVec a = 0 ↔ ConstantFE L a) ∧ (∀ b, C.mulVec b = 0 ↔ ∃ a, G.mulVec a = b) ∧
    (∀ c, B.mulVec c = 0 ↔ ∃ b, C.mulVec b = c) ∧ ∀ q, ∃ c, B.mulVec c = q

/-- `L → N → Q` is an exact sequence under gradient and scalar curl. -/
def DeRhamCurl2 {nL mL nN mN nQ mQ : ℕ} (L : PolySet ℝ (Fin 2 → ℝ) nL mL Unit) (N : PolySet ℝ (Fin 2 → ℝ) nN mN (Fin 2))
    (Q : PolySet ℝ (Fin 2 → ℝ) nQ mQ Unit) : Prop :=
  (Tabulated L ∧ Tabulated N ∧ Tabulated Q) ∧
  ∃ (G : Matrix (Fin mN) (Fin mL) ℝ) (C : Matrix (Fin mQ) (Fin mN) ℝ), GradMatrix L N G ∧ ScalarCurlMatrix N Q C ∧
    (∀ a, G.mulVec a = 0 ↔ ConstantFE L a) ∧ (∀ b, C.mulVec b = 0 ↔ ∃ a, G.mulVec a = b) ∧ ∀ q, ∃ b, C.mulVec b = q

/-- `L → R → Q` is an exact sequence under rotated gradient and divergence. -/
def DeRhamDiv2 {nL mL nR mR nQ mQ : ℕ} (L : PolySet ℝ (Fin 2 → ℝ) nL mL Unit) (R : PolySet ℝ (Fin 2 → ℝ) nR mR (Fin 2))
    (Q : PolySet ℝ (Fin 2 → ℝ) nQ mQ Unit) : Prop :=
  (Tabulated L ∧ Tabulated R ∧ Tabulated Q) ∧
  ∃ (G : Matrix (Fin mR) (Fin mL) ℝ) (B : Matrix (Fin mQ) (Fin mR) ℝ), RotMatrix L R G ∧ DivMatrix R Q B ∧
    (∀ a, G.mulVec a = 0 ↔ ConstantFE L a) ∧ (∀ c, B.mulVec c = 0 ↔ ∃ a, G.mulVec a = c) ∧ ∀ q, ∃ c, B.mulVec c = q

end spec

/-! ### Operators -/

section ops
variable {D : ℕ}

noncomputable def gradOp : (Unit → MvPolynomial (Fin D) ℝ) →ₗ[ℝ] (Fin D → MvPolynomial (Fin D) ℝ) where
  toFun w j := pderiv j (w ())
  map_add' u w := by funext j; simp
  map_smul' a w := by funext j; simp

noncomputable def divOp : (Fin D → MvPolynomial (Fin D) ℝ) →ₗ[ℝ] (Unit → MvPolynomial (Fin D) ℝ) where
  toFun w _ := divergence w
  map_add' u w := by funext j; simp [divergence, Finset.sum_add_distrib]
  map_smul' a w := by funext j; simp [divergence, Finset.smul_sum]

noncomputable def curlOp : (Fin 3 → MvPolynomial (Fin 3) ℝ) →ₗ[ℝ] (Fin 3 → MvPolynomial (Fin 3) ℝ) where
  toFun w := curlP w
  map_add' u w := by funext j; fin_cases j <;> simp [curlP] <;> ring
  map_smul' a w := by funext j; fin_cases j <;> simp [curlP, smul_sub]

noncomputable def rotOp : (Unit → MvPolynomial (Fin 2) ℝ) →ₗ[ℝ] (Fin 2 → MvPolynomial (Fin 2) ℝ) where
  toFun w := rotP (w ())
  map_add' u w := by funext j; fin_cases j <;> simp [rotP]; ring
  map_smul' a w := by funext j; fin_cases j <;> simp [rotP]

noncomputable def scurlOp : (Fin 2 → MvPolynomial (Fin 2) ℝ) →ₗ[ℝ] (Unit → MvPolynomial (Fin 2) ℝ) where
  toFun w _ := scurlP w
  map_add' u w := by funext j; simp [scurlP]; ring
  map_smul' a w := by funext j; simp [scurlP, smul_sub]

theorem curl_grad (w : Unit → MvPolynomial (Fin 3) ℝ) : curlOp (gradOp w) = 0 := by
  funext j
  fin_cases j
  · show pderiv 1 (pderiv 2 (w ())) - pderiv 2 (pderiv 1 (w ())) = 0
    rw [pderiv_comm, sub_self]
  · show pderiv 2 (pderiv 0 (w ())) - pderiv 0 (pderiv 2 (w ())) = 0
    rw [pderiv_comm, sub_self]
  · show pderiv 0 (pderiv 1 (w ())) - pderiv 1 (pderiv 0 (w ())) = 0
    rw [pderiv_comm, sub_self]

theorem div_curl (w : Fin 3 → MvPolynomial (Fin 3) ℝ) : divOp (curlOp w) = 0 := by
  funext j
  show divergence (curlP w) = 0
  unfold divergence
  rw [Fin.sum_univ_three]
  show pderiv 0 (pderiv 1 (w 2) - pderiv 2 (w 1)) + pderiv 1 (pderiv 2 (w 0) - pderiv 0 (w 2)) + pderiv 2 (pderiv 0 (w 1) - pderiv 1 (w 0)) = 0
  simp only [map_sub]
  rw [pderiv_comm 0 1, pderiv_comm 0 2, pderiv_comm 1 2]
  ring

theorem scurl_grad (w : Unit → MvPolynomial (Fin 2) ℝ) : scurlOp (gradOp w) = 0 := by
  funext j
  show pderiv 0 (pderiv 1 (w ())) - pderiv 1 (pderiv 0 (w ())) = 0
  rw [pderiv_comm, sub_self]

theorem div_rot (w : Unit → MvPolynomial (Fin 2) ℝ) : divOp (rotOp w) = 0 := by
  funext j
  show divergence (rotP (w ())) = 0
  unfold divergence
  rw [Fin.sum_univ_two]
  show pderiv 0 (pderiv 1 (w ())) + pderiv 1 (- pderiv 0 (w ())) = 0
  rw [map_neg, pderiv_comm, add_neg_cancel]

/-- A space closed under linear combinations. -/
def LinClosed {Cp : Type} (V : (Cp → MvPolynomial (Fin D) ℝ) → Prop) : Prop :=
  ∀ (m : ℕ) (a : Fin m → ℝ) (ψ : Fin m → Cp → MvPolynomial (Fin D) ℝ), (∀ i, V (ψ i)) → V (∑ i, a i • ψ i)

theorem linClosed_deg (k : ℕ) : LinClosed fun w : Unit → MvPolynomial (Fin D) ℝ => (w ()).totalDegree ≤ k := by
  intro m a ψ h
  show ((∑ i, a i • ψ i) ()).totalDegree ≤ k
  rw [Finset.sum_apply]
  exact sum_degree _ _ _ fun i _ => (totalDegree_smul_le _ _).trans (h i)

theorem linClosed_full (k : ℕ) : LinClosed (FullDeg (D := D) k) := by
  intro m a ψ h j
  rw [Finset.sum_apply]
  exact sum_degree _ _ _ fun i _ => (totalDegree_smul_le _ _).trans (h i j)

theorem linClosed_rt (k : ℕ) : LinClosed (IsRT (D := D) k) := by
  intro m a ψ h
  choose p q h1 h2 h3 using h
  refine ⟨fun j => ∑ i, a i • p i j, ∑ i, a i • q i, fun j => sum_degree _ _ _ fun i _ => (totalDegree_smul_le _ _).trans (h1 i j),
    sum_degree _ _ _ fun i _ => (totalDegree_smul_le _ _).trans (h2 i), fun j => ?_⟩
  rw [Finset.sum_apply, Finset.mul_sum, ← Finset.sum_add_distrib]
  exact Finset.sum_congr rfl fun i _ => by rw [Pi.smul_apply, h3, smul_add, mul_smul_comm]

theorem linClosed_ned (k : ℕ) : LinClosed (IsNed (D := D) k) := by
  intro m a ψ h
  choose p A h1 h2 h3 h4 using h
  refine ⟨fun j => ∑ i, a i • p i j, fun j l => ∑ i, a i • A i j l, fun j => sum_degree _ _ _ fun i _ => (totalDegree_smul_le _ _).trans (h1 i j),
    fun j l => sum_degree _ _ _ fun i _ => (totalDegree_smul_le _ _).trans (h2 i j l), fun j l => ?_, fun j => ?_⟩
  · rw [← Finset.sum_neg_distrib]
    exact Finset.sum_congr rfl fun i _ => by rw [h3 i j l, smul_neg]
  · rw [Finset.sum_apply]
    simp only [Finset.sum_mul]
    rw [Finset.sum_comm, ← Finset.sum_add_distrib]
    refine Finset.sum_congr rfl fun i _ => ?_
    rw [Pi.smul_apply, h4, smul_add, Finset.smul_sum]
    congr 1
    exact Finset.sum_congr rfl fun l _ => by rw [smul_mul_assoc]

end ops

/-! ### Complexes of element spaces -/

section core
variable {D : ℕ}

theorem gradMatrix_of {nL mL nN mN : ℕ} {L : PolySet ℝ (Fin D → ℝ) nL mL Unit} {N : PolySet ℝ (Fin D → ℝ) nN mN (Fin D)}
    {VL VN ψL ψN} (hL : BasisOf VL L ψL) (hN : BasisOf VN N ψN) {G : Matrix (Fin mN) (Fin mL) ℝ}
    (hG : ∀ a, gradOp (∑ i, a i • ψL i) = ∑ l, (G.mulVec a) l • ψN l) : GradMatrix L N G := by
  intro a x j
  rw [hL.feValue_unit, hN.feValue_zero, ← hG]
  rfl

theorem grad_const {nL mL mN : ℕ} {L : PolySet ℝ (Fin D → ℝ) nL mL Unit} {VL ψL} (hL : BasisOf VL L ψL) {G : Matrix (Fin mN) (Fin mL) ℝ}
    (a : Fin mL → ℝ) (hG : G.mulVec a = 0 ↔ ∀ j, pderiv j ((∑ i, a i • ψL i) ()) = 0) : G.mulVec a = 0 ↔ ConstantFE L a := by
  rw [hG]
  unfold ConstantFE
  simp only [hL.feValue_zero]
  constructor
  · intro h
    exact ⟨eval 0 ((∑ i, a i • ψL i) ()), fun x => const_of_grad _ h x 0⟩
  · rintro ⟨t, ht⟩ j
    have : (∑ i, a i • ψL i) () = C t := MvPolynomial.funext fun x => by rw [ht, eval_C]
    rw [this, pderiv_C]

theorem deRham3_core {nL mL nN mN nR mR nQ mQ : ℕ} {L : PolySet ℝ (Fin 3 → ℝ) nL mL Unit} {N : PolySet ℝ (Fin 3 → ℝ) nN mN (Fin 3)}
    {R : PolySet ℝ (Fin 3 → ℝ) nR mR (Fin 3)} {Q : PolySet ℝ (Fin 3 → ℝ) nQ mQ Unit} {VL VN VR VQ ψL ψN ψR ψQ}
    (hL : BasisOf VL L ψL) (hN : BasisOf VN N ψN) (hR : BasisOf VR R ψR) (hQ : BasisOf VQ Q ψQ)
    (cN : LinClosed VN) (cR : LinClosed VR) (cQ : LinClosed VQ)
    (g : ∀ w, VL w → VN (gradOp w)) (c : ∀ w, VN w → VR (curlOp w)) (d : ∀ w, VR w → VQ (divOp w))
    (exN : ∀ w, VN w → curlOp w = 0 → ∃ u, VL u ∧ gradOp u = w) (exR : ∀ w, VR w → divOp w = 0 → ∃ u, VN u ∧ curlOp u = w)
    (exQ : ∀ w, VQ w → ∃ u, VR u ∧ divOp u = w) : DeRham3 L N R Q := by
  obtain ⟨G, hG⟩ := operator_matrix hL hN gradOp g
  obtain ⟨Cm, hC⟩ := operator_matrix hN hR curlOp c
  obtain ⟨B, hB⟩ := operator_matrix hR hQ divOp d
  refine ⟨⟨hL.tabulated, hN.tabulated, hR.tabulated, hQ.tabulated⟩, G, Cm, B, gradMatrix_of hL hN hG, fun b x => ?_, fun b x => ?_, fun a => ?_,
    fun b => operator_exact hL hN hR gradOp G hG curlOp Cm hC curl_grad exN (fun b => cN _ b _ hN.mem) b,
    fun b => operator_exact hN hR hQ curlOp Cm hC divOp B hB div_curl exR (fun b => cR _ b _ hR.mem) b,
    fun q => operator_onto hR hQ divOp B hB exQ (fun b => cQ _ b _ hQ.mem) q⟩
  · simp only [hR.feValue_zero, ← hC]
    simp only [show ([1, 0, 0] : List ℕ) = unitAlpha 3 (0 : Fin 3) from rfl, show ([0, 1, 0] : List ℕ) = unitAlpha 3 (1 : Fin 3) from rfl,
      show ([0, 0, 1] : List ℕ) = unitAlpha 3 (2 : Fin 3) from rfl, hN.feValue_unit, ← map_sub]
    exact ⟨rfl, rfl, rfl⟩
  · simp only [hR.feValue_unit, hQ.feValue_zero, ← hB, ← map_sum]
    rfl
  · refine grad_const hL a ?_
    rw [operator_ker hN gradOp G hG]
    exact ⟨fun h j => congrFun h j, fun h => _root_.funext h⟩

theorem deRhamCurl2_core {nL mL nN mN nQ mQ : ℕ} {L : PolySet ℝ (Fin 2 → ℝ) nL mL Unit} {N : PolySet ℝ (Fin 2 → ℝ) nN mN (Fin 2)}
    {Q : PolySet ℝ (Fin 2 → ℝ) nQ mQ Unit} {VL VN VQ ψL ψN ψQ}
    (hL : BasisOf VL L ψL) (hN : BasisOf VN N ψN) (hQ : BasisOf VQ Q ψQ)
    (cN : LinClosed VN) (cQ : LinClosed VQ)
    (g : ∀ w, VL w → VN (gradOp w)) (c : ∀ w, VN w → VQ (scurlOp w))
    (exN : ∀ w, VN w → scurlOp w = 0 → ∃ u, VL u ∧ gradOp u = w)
    (exQ : ∀ w, VQ w → ∃ u, VN u ∧ scurlOp u = w) : DeRhamCurl2 L N Q := by
  obtain ⟨G, hG⟩ := operator_matrix hL hN gradOp g
  obtain ⟨Cm, hC⟩ := operator_matrix hN hQ scurlOp c
  refine ⟨⟨hL.tabulated, hN.tabulated, hQ.tabulated⟩, G, Cm, gradMatrix_of hL hN hG, fun b x => ?_, fun a => ?_,
    fun b => operator_exact hL hN hQ gradOp G hG scurlOp Cm hC scurl_grad exN (fun b => cN _ b _ hN.mem) b,
    fun q => operator_onto hN hQ scurlOp Cm hC exQ (fun b => cQ _ b _ hQ.mem) q⟩
  · rw [hQ.feValue_zero, ← hC]
    simp only [show ([1, 0] : List ℕ) = unitAlpha 2 (0 : Fin 2) from rfl, show ([0, 1] : List ℕ) = unitAlpha 2 (1 : Fin 2) from rfl,
      hN.feValue_unit, ← map_sub]
    rfl
  · refine grad_const hL a ?_
    rw [operator_ker hN gradOp G hG]
    exact ⟨fun h j => congrFun h j, fun h => _root_.funext h⟩

theorem deRhamDiv2_core {nL mL nR mR nQ mQ : ℕ} {L : PolySet ℝ (Fin 2 → ℝ) nL mL Unit} {R : PolySet ℝ (Fin 2 → ℝ) nR mR (Fin 2)}
    {Q : PolySet ℝ (Fin 2 → ℝ) nQ mQ Unit} {VL VR VQ ψL ψR ψQ}
    (hL : BasisOf VL L ψL) (hR : BasisOf VR R ψR) (hQ : BasisOf VQ Q ψQ)
    (cR : LinClosed VR) (cQ : LinClosed VQ)
    (g : ∀ w, VL w → VR (rotOp w)) (c : ∀ w, VR w → VQ (divOp w))
    (exR : ∀ w, VR w → divOp w = 0 → ∃ u, VL u ∧ rotOp u = w)
    (exQ : ∀ w, VQ w → ∃ u, VR u ∧ divOp u = w) : DeRhamDiv2 L R Q := by
  obtain ⟨G, hG⟩ := operator_matrix hL hR rotOp g
  obtain ⟨B, hB⟩ := operator_matrix hR hQ divOp c
  refine ⟨⟨hL.tabulated, hR.tabulated, hQ.tabulated⟩, G, B, fun b x => ?_, fun b x => ?_, fun a => ?_,
    fun b => operator_exact hL hR hQ rotOp G hG divOp B hB div_rot exR (fun b => cR _ b _ hR.mem) b,
    fun q => operator_onto hR hQ divOp B hB exQ (fun b => cQ _ b _ hQ.mem) q⟩
  · simp only [hR.feValue_zero, ← hG]
    simp only [show ([1, 0] : List ℕ) = unitAlpha 2 (0 : Fin 2) from rfl, show ([0, 1] : List ℕ) = unitAlpha 2 (1 : Fin 2) from rfl,
      hL.feValue_unit]
    exact ⟨rfl, (map_neg _ _).symm⟩
  · simp only [hR.feValue_unit, hQ.feValue_zero, ← hB, ← map_sum]
    rfl
  · refine grad_const hL a ?_
    rw [operator_ker hR rotOp G hG]
    constructor
    · intro h j
      fin_cases j
      · have := congrFun h 1
        exact neg_eq_zero.1 this
      · exact congrFun h 0
    · intro h
      funext j
      fin_cases j
      · exact h 1
      · show - pderiv 0 _ = 0
        rw [h 0, neg_zero]

end core

/-! ### The discontinuous Lagrange element -/

section dg
variable {D : ℕ}

/-- C22/C72: `DiscontinuousLagrange(cell, k)` is a nodal element for the polynomials of degree at most `k`, every dof is on the cell;
for `k = 0` the node is the value at the barycentre, else the nodes are those of `Lagrange(cell, k)`. -/
theorem discontinuous_lagrange_spec (hD : D = 1 ∨ D = 2 ∨ D = 3) (s : SimplexCell (Fin D → ℝ)) (hs : ProperSimplex ℝ s)
    (hv : Increasing fun i : Fin (D + 1) => s.v i) (k : ℕ) :
    ∃ el nodes ids, discontinuousLagrange s k = some (el, nodes, ids) ∧ IsNodalScalar k nodes el ∧ AllOnCell s.topo D ids nodes.length ∧
      (k = 0 → nodes = [pointEvaluation ((1 / ((D : ℝ) + 1)) • ∑ i : Fin (D + 1), s.v i)]) ∧
      (1 ≤ k → ∃ pts ids', lagrangeDual ℝ s k = some (pts, ids') ∧ nodes = pts.map pointEvaluation) := by
  have hverts := verts_ofFn s hs.2.1 hs.1
  match k with
  | 0 =>
    have hmid : (1 / (s.verts.length : ℝ)) • s.verts.sum = (1 / ((D : ℝ) + 1)) • ∑ i : Fin (D + 1), s.v i := by
      rw [hverts, List.length_ofFn, List.sum_ofFn]
      push_cast
      rfl
    obtain ⟨ids, i1, i2⟩ := p0_all_on_cell s.topo hs.2.1.wf D hs.2.2.2
    obtain ⟨el, e1, e2⟩ := functional_element_spec hD s hs hv 0 [pointEvaluation ((1 / ((D : ℝ) + 1)) • ∑ i : Fin (D + 1), s.v i)] (by simp)
      (by
        intro l hl
        rw [List.mem_singleton] at hl
        subst hl
        exact wf_eval _)
      (by
        right
        intro l hl
        rw [List.mem_singleton] at hl
        subst hl
        rfl)
      (by
        intro p hp hz
        have h0 := hz _ (List.mem_singleton.2 rfl)
        rw [point_eval_scalar] at h0
        have := totalDegree_eq_zero_iff_eq_C.1 (Nat.le_zero.1 hp)
        rw [this, eval_C] at h0
        rw [this, h0, C_0])
    refine ⟨el, _, ids, ?_, e2, i2, fun _ => rfl, fun h => absurd h (by omega)⟩
    show p0Element s = _
    unfold p0Element
    simp only [i1, hmid, e1, Option.bind_eq_bind, Option.bind_some]
  | k + 1 =>
    obtain ⟨pts, ids, h1, h2⟩ := lagrange_num_nodes (K := ℝ) s hs.2.1 hs.2.2.1 (k + 1) (by omega) (by rw [hs.1]; omega)
    obtain ⟨ids', g1, g2⟩ := disc_lagrange_nodes (K := ℝ) s hs.2.1.wf D hs.2.2.2 (k + 1) pts ids h1
    have hmem : ∀ l ∈ pts.map (fun x => (pointEvaluation x : Functional ℝ (Fin D → ℝ))), ∃ x ∈ pts, l = pointEvaluation x := by
      intro l hl
      obtain ⟨x, hx, rfl⟩ := List.mem_map.1 hl
      exact ⟨x, hx, rfl⟩
    obtain ⟨el, e1, e2⟩ := functional_element_spec hD s hs hv (k + 1) (pts.map pointEvaluation) (by rw [List.length_map, h2, hs.1])
      (by
        intro l hl
        obtain ⟨x, -, rfl⟩ := hmem l hl
        exact wf_eval _)
      (by
        right
        intro l hl
        obtain ⟨x, -, rfl⟩ := hmem l hl
        rfl)
      (by
        intro p hp hz
        refine lagrange_unisolvent s hs.1 hs.2.1 hs.2.2.1 (by omega) (k + 1) (by omega) pts ids h1 p hp fun x hx => ?_
        rw [← point_eval_scalar]
        exact hz _ (List.mem_map.2 ⟨x, hx, rfl⟩))
    refine ⟨el, _, ids', ?_, e2, by rw [List.length_map]; exact g2, fun h => absurd h (by omega), fun _ => ⟨pts, ids, h1, rfl⟩⟩
    show higherOrderDG s (k + 1) = _
    unfold higherOrderDG
    simp only [g1, e1, Option.bind_eq_bind, Option.bind_some]

theorem dg_basis (hD : D = 1 ∨ D = 2 ∨ D = 3) (s : SimplexCell (Fin D → ℝ)) (hs : ProperSimplex ℝ s)
    (hv : Increasing fun i : Fin (D + 1) => s.v i) (k : ℕ) :
    ∃ el nodes ids, discontinuousLagrange s k = some (el, nodes, ids) ∧ ∃ ψ, BasisOf (fun w : Unit → _ => (w ()).totalDegree ≤ k) el ψ := by
  obtain ⟨el, nodes, ids, h1, h2, -⟩ := discontinuous_lagrange_spec hD s hs hv k
  exact ⟨el, nodes, ids, h1, basisOf_nodal (by obtain ⟨_, _, _, h, _⟩ := h2; exact h) h2.toC⟩

theorem cg_basis (hD : D = 1 ∨ D = 2 ∨ D = 3) (s : SimplexCell (Fin D → ℝ)) (hs : ProperSimplex ℝ s)
    (hv : Increasing fun i : Fin (D + 1) => s.v i) (k : ℕ) (hk : 1 ≤ k) :
    ∃ el ids, lagrangeElement s k = some (el, ids) ∧ ∃ ψ, BasisOf (fun w : Unit → _ => (w ()).totalDegree ≤ k) el ψ := by
  obtain ⟨el, ids, nodes, h1, -, h3, h4⟩ := lagrange_nodal hD s hs hv k hk
  exact ⟨el, ids, h1, basisOf_nodal h3 h4⟩

end dg

/-! ### Exactness on the level of polynomials -/

section poly
variable {D : ℕ}

theorem grad_full {k : ℕ} (w : Unit → MvPolynomial (Fin D) ℝ) (h : (w ()).totalDegree ≤ k + 1) : FullDeg k (gradOp w) := fun j =>
  (totalDegree_pderiv_sub j (w ())).trans (by omega)

theorem ned_exact3 {k : ℕ} (w : Fin 3 → MvPolynomial (Fin 3) ℝ) (hw : IsNed k w) (hc : curlOp w = 0) :
    ∃ u : Unit → MvPolynomial (Fin 3) ℝ, (u ()).totalDegree ≤ k + 1 ∧ gradOp u = w := by
  refine ⟨fun _ => ∑ j, X j * invDeg 1 (w j), ned_potential_degree hw, ?_⟩
  have h0 : pderiv 1 (w 2) - pderiv 2 (w 1) = 0 := congrFun hc 0
  have h1 : pderiv 2 (w 0) - pderiv 0 (w 2) = 0 := congrFun hc 1
  have h2 : pderiv 0 (w 1) - pderiv 1 (w 0) = 0 := congrFun hc 2
  funext i
  refine gradient_of_closed w (fun i j => ?_) i
  fin_cases i <;> fin_cases j
  · rfl
  · exact sub_eq_zero.1 h2
  · exact (sub_eq_zero.1 h1).symm
  · exact (sub_eq_zero.1 h2).symm
  · rfl
  · exact sub_eq_zero.1 h0
  · exact sub_eq_zero.1 h1
  · exact (sub_eq_zero.1 h0).symm
  · rfl

theorem ned_exact2 {k : ℕ} (w : Fin 2 → MvPolynomial (Fin 2) ℝ) (hw : IsNed k w) (hc : scurlOp w = 0) :
    ∃ u : Unit → MvPolynomial (Fin 2) ℝ, (u ()).totalDegree ≤ k + 1 ∧ gradOp u = w := by
  refine ⟨fun _ => ∑ j, X j * invDeg 1 (w j), ned_potential_degree hw, ?_⟩
  have h2 : pderiv 0 (w 1) - pderiv 1 (w 0) = 0 := congrFun hc ()
  funext i
  refine gradient_of_closed w (fun i j => ?_) i
  fin_cases i <;> fin_cases j
  · rfl
  · exact sub_eq_zero.1 h2
  · exact (sub_eq_zero.1 h2).symm
  · rfl

theorem rt_exact2 {k : ℕ} (w : Fin 2 → MvPolynomial (Fin 2) ℝ) (hw : IsRT k w) (hd : divOp w = 0) :
    ∃ u : Unit → MvPolynomial (Fin 2) ℝ, (u ()).totalDegree ≤ k + 1 ∧ rotOp u = w :=
  ⟨fun _ => ∑ j, X j * invDeg 1 ((![- w 1, w 0] : Fin 2 → MvPolynomial (Fin 2) ℝ) j), ned_potential_degree (rot_ned hw),
    rot_of_closed w (congrFun hd ())⟩

theorem rot_full {k : ℕ} (w : Unit → MvPolynomial (Fin 2) ℝ) (h : (w ()).totalDegree ≤ k + 1) : FullDeg k (rotOp w) := by
  have h' := grad_full w h
  intro j
  fin_cases j
  · exact h' 1
  · show (- pderiv 0 (w ())).totalDegree ≤ k
    rw [totalDegree_neg]
    exact h' 0

theorem rt_div_onto (hD : 1 ≤ D) {k : ℕ} (w : Unit → MvPolynomial (Fin D) ℝ) (hw : (w ()).totalDegree ≤ k) : ∃ u, IsRT k u ∧ divOp u = w :=
  ⟨fun i => X i * invDeg D (w ()), ⟨fun _ => 0, invDeg D (w ()), by simp, (invDeg_degree _ _).trans hw, fun j => by simp⟩,
    _root_.funext fun _ => div_onto hD (w ())⟩

theorem ned_scurl_onto {k : ℕ} (w : Unit → MvPolynomial (Fin 2) ℝ) (hw : (w ()).totalDegree ≤ k) : ∃ u, IsNed k u ∧ scurlOp u = w :=
  ⟨_, scurl_onto_ned hw, _root_.funext fun _ => scurl_onto (w ())⟩

theorem scurl_degree {k : ℕ} (w : Fin 2 → MvPolynomial (Fin 2) ℝ) (hw : FullDeg (k + 1) w) : (scurlOp w ()).totalDegree ≤ k := by
  show (pderiv 0 (w 1) - pderiv 1 (w 0)).totalDegree ≤ k
  refine (totalDegree_sub _ _).trans (max_le ?_ ?_)
  · have := totalDegree_pderiv_sub 0 (w 1); have := hw 1; omega
  · have := totalDegree_pderiv_sub 1 (w 0); have := hw 0; omega

end poly

/-! ### The complexes of FIAT elements -/

section complexes

/-- C72: on a tetrahedron `Lagrange(k+1) → Nedelec(k+1) → RaviartThomas(k+1) → DiscontinuousLagrange(k)` (in FIAT's degrees; the models of
the two vector elements take the degree minus one) is an exact sequence. -/
theorem de_rham_tetrahedron (s : SimplexCell (Fin 3 → ℝ)) (hs : ProperSimplex ℝ s) (hnum : NumberedSimplex s)
    (ho : 0 < orientation fun i : Fin (3 + 1) => s.v i) {gj : ℕ → ℕ → List ℝ} (hgj : NodesOK gj)
    {nrm : ℕ → Option (Fin 3 → ℝ)} (hn : FacetNormals s nrm) (k : ℕ)
    (svdN : SvdFun) (hsvdN : ∀ A B, nedRows gj k 3 s = some (A, B) → SvdOK (svdN 3 _) (A ++ B))
    (svdR : List (Fin 3 → Fin ((k + 1 + 3).choose 3) → ℝ) → List ℝ × List (Fin 3 → Fin ((k + 1 + 3).choose 3) → ℝ))
    (hsvdR : ∀ A B, rtRows gj k s = some (A, B) → SvdOK svdR (A ++ B))
    (T : DigitTable) (varN varR : Option (List Char)) (vN vR : DualVariant) (hvN : dualVariant T varN k = some vN)
    (hvR : dualVariant T varR k = some vR) :
    ∃ L idsL mN N nodesN idsN mR R nodesR idsR Q nodesQ idsQ, lagrangeElement s (k + 1) = some (L, idsL) ∧
      nedelec gj k svdN T s varN = some (⟨mN, N⟩, nodesN, idsN) ∧ raviartThomas gj k svdR T s nrm varR = some (⟨mR, R⟩, nodesR, idsR) ∧
      discontinuousLagrange s k = some (Q, nodesQ, idsQ) ∧ DeRham3 L N R Q := by
  have hv : Increasing fun i : Fin (3 + 1) => s.v i := fun h => absurd h (by norm_num)
  obtain ⟨L, idsL, l1, ψL, l2⟩ := cg_basis (Or.inr (Or.inr rfl)) s hs hv (k + 1) (by omega)
  obtain ⟨mN, N, nodesN, idsN, n1, -, n2, -, -, n3⟩ := nedelec_spec (Or.inr rfl) s hs hnum ho hgj k svdN hsvdN T varN vN hvN
  obtain ⟨mR, R, nodesR, idsR, r1, -, r2, -, -, r3⟩ := raviart_thomas_spec (Or.inr rfl) s hs hnum ho hgj hn k svdR hsvdR T varR vR hvR
  obtain ⟨Q, nodesQ, idsQ, q1, ψQ, q2⟩ := dg_basis (Or.inr (Or.inr rfl)) s hs hv k
  obtain ⟨ψN, n4⟩ := basisOf_nodal n2 n3.toC
  obtain ⟨ψR, r4⟩ := basisOf_nodal r2 r3.toC
  refine ⟨L, idsL, mN, N, nodesN, idsN, mR, R, nodesR, idsR, Q, nodesQ, idsQ, l1, n1, r1, q1, ?_⟩
  exact deRham3_core l2 n4 r4 q2 (linClosed_ned k) (linClosed_rt k) (linClosed_deg k) (fun w h => fullDeg_ned (grad_full w h))
    (fun w h => fullDeg_rt (curlP_degree (ned_fullDeg h))) (fun w h => divergence_degree (rt_fullDeg h)) ned_exact3
    (fun w h hd => ⟨vecPot w, rt_potential h, curl_of_closed w (congrFun hd ())⟩) (fun w h => rt_div_onto (by norm_num) w h)

/-- C72: the same with the elements of the second kind, `Lagrange(k+3) → NedelecSecondKind(k+2) → BrezziDouglasMarini(k+1) →
DiscontinuousLagrange(k)`, on `UFCTetrahedron` (the second kind element refuses other tetrahedra from degree 2 on). -/
theorem de_rham_tetrahedron_second_kind {gj : ℕ → ℕ → List ℝ} (hgj : NodesOK gj)
    {nrm : ℕ → Option (Fin 3 → ℝ)} (hn : FacetNormals ((ufcTetrahedron : CellData ℝ).toSimplex 3) nrm) {nrm2 : ℕ → Option (Fin 2 → ℝ)}
    (hn2 : FacetNormals ((ufcTriangle : CellData ℝ).toSimplex 2) nrm2) (k : ℕ) (svdN svdR : SvdFun)
    (hsvd2 : ∀ A B, rtRows gj k ((ufcTriangle : CellData ℝ).toSimplex 2) = some (A, B) → SvdOK (svdN 2 _) (A ++ B))
    (hsvd3 : 1 ≤ k → ∀ A B, rtRows gj (k - 1) ((ufcTetrahedron : CellData ℝ).toSimplex 3) = some (A, B) → SvdOK (svdN 3 _) (A ++ B))
    (hsvdR : 1 ≤ k → ∀ A B, nedRows gj (k - 1) 3 ((ufcTetrahedron : CellData ℝ).toSimplex 3) = some (A, B) → SvdOK (svdR 3 _) (A ++ B))
    (T : DigitTable) (varN varR : Option (List Char)) (vN vR : DualVariant) (hvN : dualVariant T varN (k + 2) = some vN)
    (hvR : dualVariant T varR (k + 1) = some vR) :
    ∃ L idsL mN N nodesN idsN mR R nodesR idsR Q nodesQ idsQ, lagrangeElement ((ufcTetrahedron : CellData ℝ).toSimplex 3) (k + 3) = some (L, idsL) ∧
      nedelec2 gj (k + 2) svdN T ((ufcTetrahedron : CellData ℝ).toSimplex 3) true nrm nrm2 varN = some (⟨mN, N⟩, nodesN, idsN) ∧
      bdm gj (k + 1) svdR T ((ufcTetrahedron : CellData ℝ).toSimplex 3) nrm varR = some (⟨mR, R⟩, nodesR, idsR) ∧
      discontinuousLagrange ((ufcTetrahedron : CellData ℝ).toSimplex 3) k = some (Q, nodesQ, idsQ) ∧ DeRham3 L N R Q := by
  have hs := proper_ufcTetrahedron (K := ℝ)
  have ho : 0 < orientation fun i : Fin (3 + 1) => ((ufcTetrahedron : CellData ℝ).toSimplex 3).v i := by
    have hverts : (fun i : Fin (3 + 1) => ((ufcTetrahedron : CellData ℝ).toSimplex 3).v i) = ufcVerts ℝ 3 := by
      funext i l
      fin_cases i <;> fin_cases l <;> rfl
    rw [hverts]
    unfold orientation
    have : (Matrix.of fun i j : Fin 3 => ufcVerts ℝ 3 j.succ i - ufcVerts ℝ 3 0 i) = 1 := by
      ext i j
      simp [ufcVerts, Matrix.one_apply]
    rw [this, Matrix.det_one]
    exact one_pos
  have hv : Increasing fun i : Fin (3 + 1) => ((ufcTetrahedron : CellData ℝ).toSimplex 3).v i := fun h => absurd h (by norm_num)
  obtain ⟨L, idsL, l1, ψL, l2⟩ := cg_basis (Or.inr (Or.inr rfl)) _ hs hv (k + 3) (by omega)
  obtain ⟨mN, N, nodesN, idsN, n1, -, n2, -, -, n3⟩ := nedelec2_tetrahedron_spec _ hs numbered_ufcTetrahedron ho hgj hn hn2 (k + 2) (by omega) true
    (fun _ => ⟨rfl, rfl⟩) svdN (fun _ => hsvd2) (fun h => hsvd3 (by omega)) T varN vN hvN
  obtain ⟨mR, R, nodesR, idsR, r1, -, r2, -, -, r3⟩ := bdm_spec (Or.inr rfl) _ hs numbered_ufcTetrahedron ho hgj hn (k + 1) (by omega) svdR
    (fun h => hsvdR (by omega)) T varR vR hvR
  obtain ⟨Q, nodesQ, idsQ, q1, ψQ, q2⟩ := dg_basis (Or.inr (Or.inr rfl)) _ hs hv k
  obtain ⟨ψN, n4⟩ := basisOf_nodal n2 n3.toC
  obtain ⟨ψR, r4⟩ := basisOf_nodal r2 r3.toC
  refine ⟨L, idsL, mN, N, nodesN, idsN, mR, R, nodesR, idsR, Q, nodesQ, idsQ, l1, n1, r1, q1, ?_⟩
  exact deRham3_core l2 n4 r4 q2 (linClosed_full _) (linClosed_full _) (linClosed_deg k) (fun w h => grad_full w h)
    (fun w h => curlP_degree h) (fun w h => divergence_degree h) (fun w h hc => ned_exact3 w (fullDeg_ned h) hc)
    (fun w h hd => ⟨vecPot w, full_potential h, curl_of_closed w (congrFun hd ())⟩)
    (fun w h => by
      obtain ⟨u, hu, hd⟩ := rt_div_onto (by norm_num) w h
      exact ⟨u, rt_fullDeg hu, hd⟩)

/-- C72: on a triangle `Lagrange(k+1) → Nedelec(k+1) → DiscontinuousLagrange(k)` is exact under gradient and scalar curl. -/
theorem de_rham_triangle_curl (s : SimplexCell (Fin 2 → ℝ)) (hs : ProperSimplex ℝ s) (hnum : NumberedSimplex s)
    (ho : 0 < orientation fun i : Fin (2 + 1) => s.v i) {gj : ℕ → ℕ → List ℝ} (hgj : NodesOK gj) (k : ℕ)
    (svdN : SvdFun) (hsvdN : ∀ A B, nedRows gj k 2 s = some (A, B) → SvdOK (svdN 2 _) (A ++ B))
    (T : DigitTable) (varN : Option (List Char)) (vN : DualVariant) (hvN : dualVariant T varN k = some vN) :
    ∃ L idsL mN N nodesN idsN Q nodesQ idsQ, lagrangeElement s (k + 1) = some (L, idsL) ∧
      nedelec gj k svdN T s varN = some (⟨mN, N⟩, nodesN, idsN) ∧
      discontinuousLagrange s k = some (Q, nodesQ, idsQ) ∧ DeRhamCurl2 L N Q := by
  have hv : Increasing fun i : Fin (2 + 1) => s.v i := fun h => absurd h (by norm_num)
  obtain ⟨L, idsL, l1, ψL, l2⟩ := cg_basis (Or.inr (Or.inl rfl)) s hs hv (k + 1) (by omega)
  obtain ⟨mN, N, nodesN, idsN, n1, -, n2, -, -, n3⟩ := nedelec_spec (Or.inl rfl) s hs hnum ho hgj k svdN hsvdN T varN vN hvN
  obtain ⟨Q, nodesQ, idsQ, q1, ψQ, q2⟩ := dg_basis (Or.inr (Or.inl rfl)) s hs hv k
  obtain ⟨ψN, n4⟩ := basisOf_nodal n2 n3.toC
  refine ⟨L, idsL, mN, N, nodesN, idsN, Q, nodesQ, idsQ, l1, n1, q1, ?_⟩
  exact deRhamCurl2_core l2 n4 q2 (linClosed_ned k) (linClosed_deg k) (fun w h => fullDeg_ned (grad_full w h))
    (fun w h => scurl_degree w (ned_fullDeg h)) ned_exact2 (fun w h => ned_scurl_onto w h)

/-- C72: on a triangle `Lagrange(k+2) → NedelecSecondKind(k+1) → DiscontinuousLagrange(k)` is exact under gradient and scalar curl. -/
theorem de_rham_triangle_curl_second_kind (s : SimplexCell (Fin 2 → ℝ)) (hs : ProperSimplex ℝ s) (hnum : NumberedSimplex s)
    (ho : 0 < orientation fun i : Fin (2 + 1) => s.v i) {gj : ℕ → ℕ → List ℝ} (hgj : NodesOK gj)
    {nrm : ℕ → Option (Fin 2 → ℝ)} (hn : FacetNormals s nrm) (nrm2 : ℕ → Option (Fin 2 → ℝ)) (isUfc : Bool) (k : ℕ)
    (svdN : SvdFun) (hsvdN : 1 ≤ k → ∀ A B, rtRows gj (k - 1) s = some (A, B) → SvdOK (svdN 2 _) (A ++ B))
    (T : DigitTable) (varN : Option (List Char)) (vN : DualVariant) (hvN : dualVariant T varN (k + 1) = some vN) :
    ∃ L idsL mN N nodesN idsN Q nodesQ idsQ, lagrangeElement s (k + 2) = some (L, idsL) ∧
      nedelec2 gj (k + 1) svdN T s isUfc nrm nrm2 varN = some (⟨mN, N⟩, nodesN, idsN) ∧
      discontinuousLagrange s k = some (Q, nodesQ, idsQ) ∧ DeRhamCurl2 L N Q := by
  have hv : Increasing fun i : Fin (2 + 1) => s.v i := fun h => absurd h (by norm_num)
  obtain ⟨L, idsL, l1, ψL, l2⟩ := cg_basis (Or.inr (Or.inl rfl)) s hs hv (k + 2) (by omega)
  obtain ⟨mN, N, nodesN, idsN, n1, -, n2, -, -, n3⟩ := nedelec2_triangle_spec s hs hnum ho hgj hn nrm2 isUfc (k + 1) (by omega) svdN
    (fun h => hsvdN (by omega)) T varN vN hvN
  obtain ⟨Q, nodesQ, idsQ, q1, ψQ, q2⟩ := dg_basis (Or.inr (Or.inl rfl)) s hs hv k
  obtain ⟨ψN, n4⟩ := basisOf_nodal n2 n3.toC
  refine ⟨L, idsL, mN, N, nodesN, idsN, Q, nodesQ, idsQ, l1, n1, q1, ?_⟩
  exact deRhamCurl2_core l2 n4 q2 (linClosed_full _) (linClosed_deg k) (fun w h => grad_full w h)
    (fun w h => scurl_degree w h) (fun w h hc => ned_exact2 w (fullDeg_ned h) hc)
    (fun w h => by
      obtain ⟨u, hu, hd⟩ := ned_scurl_onto w h
      exact ⟨u, ned_fullDeg hu, hd⟩)

/-- C72: on a triangle `Lagrange(k+1) → RaviartThomas(k+1) → DiscontinuousLagrange(k)` is exact under rotated gradient and divergence. -/
theorem de_rham_triangle_div (s : SimplexCell (Fin 2 → ℝ)) (hs : ProperSimplex ℝ s) (hnum : NumberedSimplex s)
    (ho : 0 < orientation fun i : Fin (2 + 1) => s.v i) {gj : ℕ → ℕ → List ℝ} (hgj : NodesOK gj)
    {nrm : ℕ → Option (Fin 2 → ℝ)} (hn : FacetNormals s nrm) (k : ℕ)
    (svdR : List (Fin 2 → Fin ((k + 1 + 2).choose 2) → ℝ) → List ℝ × List (Fin 2 → Fin ((k + 1 + 2).choose 2) → ℝ))
    (hsvdR : ∀ A B, rtRows gj k s = some (A, B) → SvdOK svdR (A ++ B))
    (T : DigitTable) (varR : Option (List Char)) (vR : DualVariant) (hvR : dualVariant T varR k = some vR) :
    ∃ L idsL mR R nodesR idsR Q nodesQ idsQ, lagrangeElement s (k + 1) = some (L, idsL) ∧
      raviartThomas gj k svdR T s nrm varR = some (⟨mR, R⟩, nodesR, idsR) ∧
      discontinuousLagrange s k = some (Q, nodesQ, idsQ) ∧ DeRhamDiv2 L R Q := by
  have hv : Increasing fun i : Fin (2 + 1) => s.v i := fun h => absurd h (by norm_num)
  obtain ⟨L, idsL, l1, ψL, l2⟩ := cg_basis (Or.inr (Or.inl rfl)) s hs hv (k + 1) (by omega)
  obtain ⟨mR, R, nodesR, idsR, r1, -, r2, -, -, r3⟩ := raviart_thomas_spec (Or.inl rfl) s hs hnum ho hgj hn k svdR hsvdR T varR vR hvR
  obtain ⟨Q, nodesQ, idsQ, q1, ψQ, q2⟩ := dg_basis (Or.inr (Or.inl rfl)) s hs hv k
  obtain ⟨ψR, r4⟩ := basisOf_nodal r2 r3.toC
  refine ⟨L, idsL, mR, R, nodesR, idsR, Q, nodesQ, idsQ, l1, r1, q1, ?_⟩
  exact deRhamDiv2_core l2 r4 q2 (linClosed_rt k) (linClosed_deg k) (fun w h => fullDeg_rt (rot_full w h))
    (fun w h => divergence_degree (rt_fullDeg h)) rt_exact2 (fun w h => rt_div_onto (by norm_num) w h)

/-- C72: on a triangle `Lagrange(k+2) → BrezziDouglasMarini(k+1) → DiscontinuousLagrange(k)` is exact under rotated gradient and
divergence. -/
theorem de_rham_triangle_div_second_kind (s : SimplexCell (Fin 2 → ℝ)) (hs : ProperSimplex ℝ s) (hnum : NumberedSimplex s)
    (ho : 0 < orientation fun i : Fin (2 + 1) => s.v i) {gj : ℕ → ℕ → List ℝ} (hgj : NodesOK gj)
    {nrm : ℕ → Option (Fin 2 → ℝ)} (hn : FacetNormals s nrm) (k : ℕ) (svdR : SvdFun)
    (hsvdR : 1 ≤ k → ∀ A B, nedRows gj (k - 1) 2 s = some (A, B) → SvdOK (svdR 2 _) (A ++ B))
    (T : DigitTable) (varR : Option (List Char)) (vR : DualVariant) (hvR : dualVariant T varR (k + 1) = some vR) :
    ∃ L idsL mR R nodesR idsR Q nodesQ idsQ, lagrangeElement s (k + 2) = some (L, idsL) ∧
      bdm gj (k + 1) svdR T s nrm varR = some (⟨mR, R⟩, nodesR, idsR) ∧
      discontinuousLagrange s k = some (Q, nodesQ, idsQ) ∧ DeRhamDiv2 L R Q := by
  have hv : Increasing fun i : Fin (2 + 1) => s.v i := fun h => absurd h (by norm_num)
  obtain ⟨L, idsL, l1, ψL, l2⟩ := cg_basis (Or.inr (Or.inl rfl)) s hs hv (k + 2) (by omega)
  obtain ⟨mR, R, nodesR, idsR, r1, -, r2, -, -, r3⟩ := bdm_spec (Or.inl rfl) s hs hnum ho hgj hn (k + 1) (by omega) svdR
    (fun h => hsvdR (by omega)) T varR vR hvR
  obtain ⟨Q, nodesQ, idsQ, q1, ψQ, q2⟩ := dg_basis (Or.inr (Or.inl rfl)) s hs hv k
  obtain ⟨ψR, r4⟩ := basisOf_nodal r2 r3.toC
  refine ⟨L, idsL, mR, R, nodesR, idsR, Q, nodesQ, idsQ, l1, r1, q1, ?_⟩
  exact deRhamDiv2_core l2 r4 q2 (linClosed_full _) (linClosed_deg k) (fun w h => rot_full w h)
    (fun w h => divergence_degree h) (fun w h hd => rt_exact2 w (fullDeg_rt h) hd)
    (fun w h => by
      obtain ⟨u, hu, hd⟩ := rt_div_onto (by norm_num) w h
      exact ⟨u, rt_fullDeg hu, hd⟩)

end complexes
end FIAT
