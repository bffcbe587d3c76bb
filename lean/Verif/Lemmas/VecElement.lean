/-
Vector-valued Ciarlet elements: nodes that separate the space give a nodal element (C23).
-/
import Verif.Lemmas.Facets
import Verif.Lemmas.Layout
import Verif.Props.Ciarlet
import Verif.Props.EndToEnd
import Verif.Props.FunctionalClasses
import Mathlib.LinearAlgebra.Matrix.ToLinearEquiv

namespace FIAT
open MvPolynomial
section
variable {D : ℕ}

/-- A vector field as the functionals see it: component `(j,)` is `w j`. -/
noncomputable def fieldOf (w : Fin D → MvPolynomial (Fin D) ℝ) : List ℕ → MvPolynomial (Fin D) ℝ :=
  fun c => ∑ j : Fin D, if [(j : ℕ)] = c then w j else 0

theorem fieldOf_apply (w : Fin D → MvPolynomial (Fin D) ℝ) (j : Fin D) : fieldOf w [(j : ℕ)] = w j := by
  unfold fieldOf
  rw [Finset.sum_eq_single j]
  · simp
  · intro b _ hb
    rw [if_neg]
    intro h
    simp only [List.cons.injEq, and_true] at h
    exact hb (Fin.ext h)
  · simp

/-- Evaluation functionals without derivatives. -/
def PlainNode (l : Functional ℝ (Fin D → ℝ)) : Prop := l.WF D ∧ l.deriv = []

theorem plain_of_pt (d : Dict (Fin D → ℝ) (List (ℝ × List ℕ))) (h : Dict.WF d) : PlainNode ⟨d, []⟩ :=
  ⟨⟨h, by simp [Dict.WF, Dict.keys], by simp⟩, rfl⟩

theorem fill_wf {ι α : Type} (L : List ι) (key : ι → Fin D → ℝ) (v : ι → α) (h : (L.map key).Nodup) :
    Dict.WF (fillDict L key v) := by
  rw [fillDict_eq _ _ _ h]
  unfold Dict.WF Dict.keys
  rw [List.map_map]
  exact h

theorem dotField_fieldOf (w : Fin D → MvPolynomial (Fin D) ℝ) (n : Fin D → ℝ) (x : Fin D → ℝ) :
    dotField (fun c x => eval x (fieldOf w c)) D (vecNat n) x = ∑ j, n j * eval x (w j) := by
  unfold dotField
  rw [Finset.sum_range]
  refine Finset.sum_congr rfl fun j _ => ?_
  beta_reduce
  rw [fieldOf_apply, vecNat, dif_pos j.2, mul_comm]

theorem point_direction_field (w : Fin D → MvPolynomial (Fin D) ℝ) (n : Fin D → ℝ) (x : Fin D → ℝ) :
    (pointDirectionEvaluation D (vecNat n) x).onField (fieldOf w) = ∑ j, n j * eval x (w j) := by
  unfold Functional.onField
  rw [point_direction_apply, dotField_fieldOf]

theorem point_direction_plain (n : ℕ → ℝ) (x : Fin D → ℝ) : PlainNode (pointDirectionEvaluation D n x) :=
  plain_of_pt _ (by simp [Dict.WF, Dict.keys])

theorem component_point_field (w : Fin D → MvPolynomial (Fin D) ℝ) (j : Fin D) (x : Fin D → ℝ) :
    ∃ l, componentPointEvaluation ((j : ℕ) : ℤ) [D] x = some l ∧ PlainNode l ∧ l.onField (fieldOf w) = eval x (w j) := by
  obtain ⟨l, h1, h2⟩ := component_point_evaluation_apply (K := ℝ) (fun c x => eval x (fieldOf w c))
    (fun α c x => eval x (iterDeriv α (fieldOf w c))) (j : ℕ) D j.2 x
  refine ⟨l, h1, ?_, ?_⟩
  · unfold componentPointEvaluation at h1
    simp only at h1
    rw [if_neg (by have := j.2; omega), Option.some.injEq] at h1
    rw [← h1]
    exact plain_of_pt _ (by simp [Dict.WF, Dict.keys])
  · unfold Functional.onField
    rw [h2, fieldOf_apply]

theorem moment_direction_field (w : Fin D → MvPolynomial (Fin D) ℝ) (n : Fin D → ℝ) (Q : List ((Fin D → ℝ) × ℝ × ℝ))
    (hQ : (Q.map fun q => q.1).Nodup) :
    (integralMomentOfDirection D (vecNat n) Q).onField (fieldOf w) = quadSum Q fun x => ∑ j, n j * eval x (w j) := by
  unfold Functional.onField
  rw [integral_moment_direction_apply _ _ _ _ _ hQ]
  congr 1
  funext x
  exact dotField_fieldOf w n x

theorem moment_direction_plain (n : ℕ → ℝ) (Q : List ((Fin D → ℝ) × ℝ × ℝ)) (hQ : (Q.map fun q => q.1).Nodup) :
    PlainNode (integralMomentOfDirection D n Q) := plain_of_pt _ (fill_wf _ _ _ hQ)

theorem moment_component_field (w : Fin D → MvPolynomial (Fin D) ℝ) (j : Fin D) (Q : List ((Fin D → ℝ) × ℝ × ℝ))
    (hQ : (Q.map fun q => q.1).Nodup) :
    (integralMoment Q [(j : ℕ)]).onField (fieldOf w) = quadSum Q fun x => eval x (w j) := by
  unfold Functional.onField
  rw [integral_moment_apply _ _ _ hQ]
  simp only [fieldOf_apply]

theorem moment_component_plain (c : List ℕ) (Q : List ((Fin D → ℝ) × ℝ × ℝ)) (hQ : (Q.map fun q => q.1).Nodup) :
    PlainNode (integralMoment Q c) := plain_of_pt _ (fill_wf _ _ _ hQ)

/-- A node is linear. -/
theorem onField_comb {m : ℕ} (l : Functional ℝ (Fin D → ℝ)) (a : Fin m → ℝ) (F : Fin m → Fin D → MvPolynomial (Fin D) ℝ) :
    l.onField (fieldOf (∑ i, a i • F i)) = ∑ i, a i * l.onField (fieldOf (F i)) := by
  rw [← Functional.onField_sum]
  congr 1
  funext c
  unfold fieldOf
  simp only [Finset.sum_apply, Pi.smul_apply]
  simp only [Finset.mul_sum]
  rw [Finset.sum_comm]
  refine Finset.sum_congr rfl fun j _ => ?_
  split_ifs with h
  · exact Finset.sum_congr rfl fun i _ => by rw [smul_eq_C_mul]
  · simp

/-- Specification of a nodal vector-valued element: `tabulate` returns, for every order and every list of points, the values of
all partial derivatives of the basis of the space `V` that is dual to `nodes`. -/
def IsNodalElement {N m : ℕ} (V : (Fin D → MvPolynomial (Fin D) ℝ) → Prop) (nodes : List (Functional ℝ (Fin D → ℝ)))
    (el : PolySet ℝ (Fin D → ℝ) N m (Fin D)) : Prop :=
  ∃ ψ : Fin m → Fin D → MvPolynomial (Fin D) ℝ, (∀ i, V (ψ i)) ∧ (∀ w, V w → w ∈ Submodule.span ℝ (Set.range ψ)) ∧
    (∀ (i : ℕ) l, nodes[i]? = some l → ∀ j : Fin m, l.onField (fieldOf (ψ j)) = if i = (j : ℕ) then 1 else 0) ∧
    ∀ (pts : List (Fin D → ℝ)) (order : ℕ), ∃ res, el.tabulate pts order = some res ∧
      (∀ α, α ∈ Dict.keys res ↔ α.length = D ∧ α.sum ≤ order) ∧
      ∀ α T, Dict.get? res α = some T → ∀ i c (j : ℕ) x, pts[j]? = some x → T i c j = eval x (iterDeriv α (ψ i c))

theorem vector_element_nodal (hD : 1 ≤ D) {N m : ℕ} (φ : Fin N → MvPolynomial (Fin D) ℝ)
    (S : PolySet ℝ (Fin D → ℝ) N m (Fin D)) (hsd : S.sd = D) (hb : BaseSpec φ S.base) (hd : DmatSpec φ S.dmats)
    (V : (Fin D → MvPolynomial (Fin D) ℝ) → Prop) (hli : LinearIndependent ℝ (S.member φ))
    (hspan : ∀ w, w ∈ Submodule.span ℝ (Set.range (S.member φ)) ↔ V w)
    (nodes : List (Functional ℝ (Fin D → ℝ))) (hlen : nodes.length = m) (hm : 1 ≤ m) (hplain : ∀ l ∈ nodes, PlainNode l)
    (hsep : ∀ w, V w → (∀ l ∈ nodes, l.onField (fieldOf w) = 0) → w = 0) :
    ∃ el, ciarletElement (onExpTab N D S.base S.dmats) (fun c : Fin D => [(c : ℕ)]) S nodes = some el ∧
      el.sd = D ∧ el.base = S.base ∧ el.dmats = S.dmats ∧ LinearIndependent ℝ (el.member φ) ∧
      (∀ w, w ∈ Submodule.span ℝ (Set.range (el.member φ)) ↔ V w) ∧
      IsNodalElement V nodes el := by
  have hcomp : Function.Injective fun c : Fin D => [(c : ℕ)] := by
    intro a b hab
    simp only [List.cons.injEq, and_true] at hab
    exact Fin.ext hab
  have hfield : ∀ (S' : PolySet ℝ (Fin D → ℝ) N m (Fin D)) i, S'.field φ (fun c : Fin D => [(c : ℕ)]) i = fieldOf (S'.member φ i) :=
    fun S' i => by funext c; unfold PolySet.field fieldOf; rfl
  have hV : (vandermonde nodes (S.field φ fun c : Fin D => [(c : ℕ)])).det ≠ 0 := by
    intro hdet
    obtain ⟨x, hx, hx0⟩ := Matrix.exists_mulVec_eq_zero_iff.2 hdet
    apply hx
    have hw : ∑ i, x i • S.member φ i = 0 := by
      apply hsep
      · rw [← hspan]
        exact (Submodule.mem_span_range_iff_exists_fun ℝ).2 ⟨x, rfl⟩
      · intro l hl
        obtain ⟨i, hi, rfl⟩ := List.getElem_of_mem hl
        have h1 := congrFun hx0 ⟨i, by omega⟩
        rw [Matrix.mulVec, dotProduct] at h1
        rw [onField_comb]
        rw [Pi.zero_apply] at h1
        rw [← h1]
        refine Finset.sum_congr rfl fun j _ => ?_
        rw [vandermonde, Matrix.of_apply]
        simp only [List.getElem?_eq_getElem hi, hfield]
        ring
    funext i
    exact Fintype.linearIndependent_iff.1 hli x hw i
  obtain ⟨el, h1, h2, h3, h4, h5, h6⟩ := ciarlet_nodal φ (onExpTab N D S.base S.dmats) rfl
    (on_exp_tab_spec hD φ S.base hb S.dmats hd) nodes (by rintro rfl; simp at hlen; omega) (fun l hl => (hplain l hl).1)
    (Or.inr fun l hl => (hplain l hl).2) (fun c : Fin D => [(c : ℕ)]) hcomp S hlen hV
  have hsd' : el.sd = D := by rw [h4, hsd]
  -- the new members span the same space
  have hmem : ∀ (a : Fin m → ℝ) (S' : PolySet ℝ (Fin D → ℝ) N m (Fin D)) (w : Fin D → MvPolynomial (Fin D) ℝ),
      ∑ i, a i • S'.field φ (fun c : Fin D => [(c : ℕ)]) i = fieldOf w ↔ ∑ i, a i • S'.member φ i = w := by
    intro a S' w
    have e : ∑ i, a i • S'.field φ (fun c : Fin D => [(c : ℕ)]) i = fieldOf (∑ i, a i • S'.member φ i) := by
      funext c
      simp only [hfield]
      unfold fieldOf
      simp only [Finset.sum_apply, Pi.smul_apply, Finset.smul_sum]
      rw [Finset.sum_comm]
      refine Finset.sum_congr rfl fun j _ => ?_
      split_ifs <;> simp
    rw [e]
    constructor
    · intro h
      funext j
      have := congrFun h [(j : ℕ)]
      rwa [fieldOf_apply, fieldOf_apply] at this
    · rintro rfl; rfl
  have hspan' : ∀ w, w ∈ Submodule.span ℝ (Set.range (el.member φ)) ↔ V w := by
    intro w
    rw [← hspan, Submodule.mem_span_range_iff_exists_fun ℝ, Submodule.mem_span_range_iff_exists_fun ℝ]
    simp only [← hmem]
    rw [← Submodule.mem_span_range_iff_exists_fun ℝ, ← Submodule.mem_span_range_iff_exists_fun ℝ]
    unfold SameSpan at h6
    rw [h6]
  have hnod : ∀ (i : ℕ) l, nodes[i]? = some l → ∀ j : Fin m, l.onField (fieldOf (el.member φ j)) = if i = (j : ℕ) then 1 else 0 := by
    intro i l hi j
    rw [← hfield]
    exact h5 i l hi j
  refine ⟨el, h1, hsd', h2, h3, ?_, hspan', el.member φ, fun i => (hspan' _).1 (Submodule.subset_span ⟨i, rfl⟩),
    fun w hw => (hspan' w).2 hw, hnod, fun pts order => ?_⟩
  · rw [Fintype.linearIndependent_iff]
    intro a ha i
    obtain ⟨l, hl⟩ : ∃ l, nodes[(i : ℕ)]? = some l := ⟨_, List.getElem?_eq_getElem (by omega)⟩
    have h7 := onField_comb l a (el.member φ)
    rw [ha] at h7
    have h8 : l.onField (fieldOf (0 : Fin D → MvPolynomial (Fin D) ℝ)) = 0 := by
      have := onField_comb l (0 : Fin 0 → ℝ) (fun _ => 0)
      simpa using this
    rw [h8, Finset.sum_eq_single i] at h7
    · rw [hnod _ l hl, if_pos rfl, mul_one] at h7; exact h7.symm
    · intro b _ hb
      rw [hnod _ l hl, if_neg (fun h => hb (Fin.ext h.symm)), mul_zero]
    · simp
  · obtain ⟨res, r1, -, r2, r3⟩ := tabulate_spec hD φ el hsd' (h2 ▸ hb) (h3 ▸ hd) pts order
    exact ⟨res, r1, r2, r3⟩

/-- If the constructor succeeds there are as many nodes as members. -/
theorem ciarlet_square {N m : ℕ} (E : ExpTab ℝ (Fin D → ℝ)) (comp : Fin D → List ℕ) (S el : PolySet ℝ (Fin D → ℝ) N m (Fin D))
    (nodes : List (Functional ℝ (Fin D → ℝ))) (h : ciarletElement E comp S nodes = some el) : nodes.length = m := by
  unfold ciarletElement at h
  simp only [Option.bind_eq_bind, Option.bind_eq_some_iff] at h
  obtain ⟨M, -, new, h2, -⟩ := h
  unfold ciarletCoeffs at h2
  by_contra hc
  rw [dif_neg hc] at h2
  simp at h2

/-- The values of a scalar orthonormal set. -/
theorem scalar_values (hD : D = 1 ∨ D = 2 ∨ D = 3) (s : SimplexCell (Fin D → ℝ)) (hs : ProperSimplex ℝ s)
    (hv : Increasing fun i : Fin (D + 1) => s.v i) (k : ℕ) (pts : List (Fin D → ℝ)) :
    ∃ S T, onPolynomialSet s k = some S ∧ S.values pts = some T ∧ ∃ φ : Fin ((k + D).choose D) → MvPolynomial (Fin D) ℝ,
      Submodule.span ℝ (Set.range φ) = restrictTotalDegree (Fin D) ℝ k ∧
      ∀ i (j : ℕ) x, pts[j]? = some x → T i () j = eval x (φ i) := by
  obtain ⟨mats, h1, φ, -, h2, h3, h4⟩ := on_core hD s hs hv k
  obtain ⟨T, t1, t2⟩ := values_spec (by omega) φ (onScalarSet ((k + D).choose D) D (expTab s.verts k) mats) rfl h3 h4 pts
  exact ⟨_, T, h1, t1, φ, h2.2, fun i j x hx => by rw [t2 i () j x hx, scalar_member]⟩

end
end FIAT
