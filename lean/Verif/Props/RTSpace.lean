/-
C23: the polynomial space of the Raviart-Thomas element.
-/
import Verif.Lemmas.VecModel

namespace FIAT
open MvPolynomial MeasureTheory

section
variable {D : ℕ}

theorem choose_diff (hD : 1 ≤ D) (n : ℕ) : (n + D).choose D - dimLower D n = (n + D - 1).choose (D - 1) := by
  obtain ⟨d, rfl⟩ : ∃ d, D = d + 1 := ⟨D - 1, by omega⟩
  unfold dimLower
  cases n with
  | zero => simp
  | succ n =>
    rw [if_neg (by omega)]
    have h := Nat.choose_succ_succ' (n + 1 + d) d
    rw [show n + 1 + (d + 1) = n + 1 + d + 1 by omega, h, show n + 1 - 1 + (d + 1) = n + 1 + d by omega]
    simp

theorem orientation_edge (v : Fin (D + 1) → Fin D → ℝ) : orientation v = (edgeMatrix v).det := rfl

/-- The rows of `PkHx` are (multiples of) the fields `x φ_i`. -/
theorem timesX_field {v : Fin (D + 1) → Fin D → ℝ} {κ : ℝ} {φ : ℕ → MvPolynomial (Fin D) ℝ} (h : OrthoSeq v κ φ)
    (n : ℕ) (Q : QRule ℝ (Fin D → ℝ)) (N : ℕ) (hQ : GoodRule Q v N) (hl : Q.wts.length = Q.pts.length) (hN : 2 * n ≤ N)
    (vals : Fin ((n + D).choose D) → Unit → ℕ → ℝ)
    (hvals : ∀ l c (j : ℕ) x, Q.pts[j]? = some x → vals l c j = eval x (φ l))
    (hv : ℕ → ℝ) (g : MvPolynomial (Fin D) ℝ) (hg : g.totalDegree + 1 ≤ n)
    (hgv : ∀ (j : ℕ) x, Q.pts[j]? = some x → hv j = eval x g) :
    rowField φ ((n + D).choose D) (timesX Q vals hv) = κ • xField g := by
  funext j
  rw [rowField_apply, Pi.smul_apply, xField]
  have hdeg : (X j * g).totalDegree ≤ n := (totalDegree_mul _ _).trans (by rw [totalDegree_X]; omega)
  rw [← h.project n (X j * g) hdeg]
  refine Finset.sum_congr rfl fun l _ => ?_
  congr 1
  have e := sum_zip_values Q.pts Q.wts hl (fun x => eval x (φ l * (X j * g)))
    (fun x w q => vals l () q * (hv q * x j * w)) (by
      intro q x w hx
      rw [hvals l () q x hx, hgv q x hx, map_mul, map_mul, eval_X]; ring)
  unfold timesX
  rw [e]
  refine hQ.1 _ ((totalDegree_mul _ _).trans ?_)
  have := h.degree l.2
  omega

/-- The rows `RTSpace` hands to `polynomial_set_union_normalized`. -/
theorem rt_rows_spec (hD : D = 1 ∨ D = 2 ∨ D = 3) (s : SimplexCell (Fin D → ℝ)) (hs : ProperSimplex ℝ s)
    (hinc : Increasing fun i : Fin (D + 1) => s.v i)
    (ho : 0 < orientation fun i : Fin (D + 1) => s.v i) {gj : ℕ → ℕ → List ℝ} (hgj : NodesOK gj) (deg : ℕ)
    {κ : ℝ} (φ : ℕ → MvPolynomial (Fin D) ℝ) (ht : ExpTabulates D (deg + 1) (fun i : Fin (D + 1) => s.v i) φ)
    (hφ : OrthoSeq (fun i : Fin (D + 1) => s.v i) κ φ) :
    ∃ mats A B, onPolynomialSet s (deg + 1) =
        some (onScalarSet ((deg + 1 + D).choose D) D (expTab s.verts (deg + 1)) mats) ∧
      BaseSpec (fun i : Fin ((deg + 1 + D).choose D) => φ i) (expTab s.verts (deg + 1)) ∧
      DmatSpec (fun i : Fin ((deg + 1 + D).choose D) => φ i) mats ∧
      rtRows gj deg s = some (A, B) ∧
      A = ((List.range D).flatMap fun p => (List.range ((deg + D).choose D)).map fun k =>
        unitRow D ((deg + 1 + D).choose D) p k) ∧
      B.map (rowField φ ((deg + 1 + D).choose D)) =
        (List.finRange ((deg + D).choose D - dimLower D deg)).map fun (i : Fin ((deg + D).choose D - dimLower D deg)) =>
          κ • xField (φ (dimLower D deg + (i : ℕ))) := by
  have h2 : HierarchicalBasis D (deg + 1) φ := fun k _ => ⟨hφ.indep k, hφ.span k⟩
  obtain ⟨mats, m1, m2, m3⟩ := on_set_of_table hD s hs hinc (deg + 1) φ ht h2
  have hverts := verts_ofFn s hs.2.1 hs.1
  obtain ⟨Q, q1, q2, q3, -⟩ := simplex_rule_spec hgj hD _ ho (2 * deg + 2) (by omega)
  rw [← hverts] at q1
  obtain ⟨T, t1, t2⟩ := values_spec (by omega) (fun i : Fin ((deg + 1 + D).choose D) => φ i)
    (onScalarSet ((deg + 1 + D).choose D) D (expTab s.verts (deg + 1)) mats) rfl m2 m3 Q.pts
  have hle : (deg + D).choose D ≤ (deg + 1 + D).choose D := Nat.choose_le_choose _ (by omega)
  have hlow := dimLower_le (D := D) deg
  refine ⟨mats, _, (List.finRange ((deg + D).choose D - dimLower D deg)).map
    fun (i : Fin ((deg + D).choose D - dimLower D deg)) =>
      timesX Q T (T ⟨dimLower D deg + (i : ℕ), by have := i.2; omega⟩ ()), m1, m2, m3, ?_, rfl, ?_⟩
  · unfold rtRows
    simp only [m1, polyDim_succ hD, polyDim_nat hD, polyDim_pred hD, Option.bind_eq_bind, Option.bind_some, q1, t1]
    rw [takeRows_blocks _ _ 0 _ hle, Option.bind_some, takeRows_ofFn _ _ _ (by omega), Option.bind_some, List.map_map]
    simp only [Nat.sub_zero, Nat.zero_add]
    rfl
  · rw [List.map_map]
    refine List.map_congr_left fun i _ => ?_
    rw [Function.comp_apply]
    refine timesX_field hφ (deg + 1) Q _ q2 q3 (by omega) T (fun l c j x hx => ?_) _ _ ?_ (fun j x hx => ?_)
    · rw [t2 l c j x hx, scalar_member]
    · have : (φ (dimLower D deg + (i : ℕ))).totalDegree ≤ deg := hφ.degree (by have := i.2; omega)
      omega
    · rw [t2 _ _ j x hx, scalar_member]

/-- The fields of these rows span the Raviart-Thomas space. -/
theorem rt_rows_fields (hD : 0 < D) {v : Fin (D + 1) → Fin D → ℝ} {κ : ℝ} {φ : ℕ → MvPolynomial (Fin D) ℝ}
    (hφ : OrthoSeq v κ φ) (deg : ℕ) (A B : List (Fin D → Fin ((deg + 1 + D).choose D) → ℝ))
    (hA : A = ((List.range D).flatMap fun p => (List.range ((deg + D).choose D)).map fun k =>
        unitRow D ((deg + 1 + D).choose D) p k))
    (hB : B.map (rowField φ ((deg + 1 + D).choose D)) =
        (List.finRange ((deg + D).choose D - dimLower D deg)).map fun (i : Fin ((deg + D).choose D - dimLower D deg)) =>
          κ • xField (φ (dimLower D deg + (i : ℕ)))) :
    Submodule.span ℝ (rowField φ ((deg + 1 + D).choose D) '' {x | x ∈ A ++ B}) = rtSub D deg := by
  have hle : (deg + D).choose D ≤ (deg + 1 + D).choose D := Nat.choose_le_choose _ (by omega)
  rw [← rtBasis_span hD hφ deg]
  apply le_antisymm
  · rw [Submodule.span_le]
    rintro _ ⟨x, hx, rfl⟩
    rcases List.mem_append.1 hx with hx | hx
    · rw [hA] at hx
      simp only [List.mem_flatMap, List.mem_range, List.mem_map] at hx
      obtain ⟨p, hp, k, hk, rfl⟩ := hx
      rw [rowField_unitRow φ p k hp (by omega)]
      exact Submodule.subset_span ⟨Sum.inl (⟨p, hp⟩, ⟨k, hk⟩), rfl⟩
    · have h1 : rowField φ ((deg + 1 + D).choose D) x ∈ B.map (rowField φ ((deg + 1 + D).choose D)) := List.mem_map_of_mem hx
      rw [hB] at h1
      obtain ⟨i, -, hi⟩ := List.mem_map.1 h1
      rw [← hi]
      exact Submodule.smul_mem _ _ (Submodule.subset_span ⟨Sum.inr i, rfl⟩)
  · rw [Submodule.span_le]
    rintro _ ⟨t | i, rfl⟩
    · refine Submodule.subset_span ⟨unitRow D _ t.1 t.2, List.mem_append_left _ ?_, ?_⟩
      · rw [hA]
        simp only [List.mem_flatMap, List.mem_range, List.mem_map]
        exact ⟨t.1, t.1.2, t.2, t.2.2, rfl⟩
      · rw [rowField_unitRow φ t.1 t.2 t.1.2 (by have := t.2.2; omega)]
        rfl
    · have h1 : κ • xField (φ (dimLower D deg + (i : ℕ))) ∈ B.map (rowField φ ((deg + 1 + D).choose D)) := by
        rw [hB]
        exact List.mem_map.2 ⟨i, List.mem_finRange i, rfl⟩
      obtain ⟨x, hx, hx2⟩ := List.mem_map.1 h1
      have : rtBasis D deg φ (Sum.inr i) = κ⁻¹ • rowField φ ((deg + 1 + D).choose D) x := by
        rw [hx2, smul_smul, inv_mul_cancel₀ hφ.pos.ne', one_smul]; rfl
      rw [this]
      exact Submodule.smul_mem _ _ (Submodule.subset_span ⟨x, List.mem_append_right _ hx, rfl⟩)

theorem ofRows_member {N : ℕ} (φ : ℕ → MvPolynomial (Fin D) ℝ) (base : List (Fin D → ℝ) → ℕ → ℕ → ℝ)
    (mats : List (Matrix (Fin N) (Fin N) ℝ)) (rows : List (Fin D → Fin N → ℝ)) (i : Fin rows.length) :
    (PolySet.ofRows D base mats rows).member (fun i : Fin N => φ i) i = rowField φ N (rows.get i) := by
  funext c
  rw [rowField_apply]
  unfold PolySet.member PolySet.ofRows
  exact Finset.sum_congr rfl fun l _ => (smul_eq_C_mul _ _).symm

/-- The contract of `numpy.linalg.svd` for one matrix, with no singular value in (0, 1e-10]. -/
def SvdOK {N : ℕ} (svd : List (Fin D → Fin N → ℝ) → List ℝ × List (Fin D → Fin N → ℝ)) (M : List (Fin D → Fin N → ℝ)) : Prop :=
  IsSVD M (svd M) ∧ SvdGap (svd M).1

/-- C23: `RTSpace(cell, deg)` on a triangle or tetrahedron with positively oriented vertices: it has
`D * dim P_deg + dim P_deg(facet)` members; they are linearly independent and span exactly the fields `p + x q` with `p` in
`P_deg^D` and `q` in `P_deg`. -/
theorem rt_space_spec (hD : D = 2 ∨ D = 3) (s : SimplexCell (Fin D → ℝ)) (hs : ProperSimplex ℝ s)
    (ho : 0 < orientation fun i : Fin (D + 1) => s.v i) {gj : ℕ → ℕ → List ℝ} (hgj : NodesOK gj) (deg : ℕ)
    (svd : List (Fin D → Fin ((deg + 1 + D).choose D) → ℝ) → List ℝ × List (Fin D → Fin ((deg + 1 + D).choose D) → ℝ))
    (hsvd : ∀ A B, rtRows gj deg s = some (A, B) → SvdOK svd (A ++ B)) :
    ∃ m S, rtSpace gj deg svd s = some ⟨m, S⟩ ∧ S.sd = D ∧
      m = D * (deg + D).choose D + (deg + D - 1).choose (D - 1) ∧
      ∃ φ : Fin ((deg + 1 + D).choose D) → MvPolynomial (Fin D) ℝ,
        LinearIndependent ℝ φ ∧ Submodule.span ℝ (Set.range φ) = restrictTotalDegree (Fin D) ℝ (deg + 1) ∧
        BaseSpec φ S.base ∧ DmatSpec φ S.dmats ∧ LinearIndependent ℝ (S.member φ) ∧
        ∀ w, w ∈ Submodule.span ℝ (Set.range (S.member φ)) ↔ IsRT deg w := by
  have hD' : D = 1 ∨ D = 2 ∨ D = 3 := Or.inr hD
  have hind : AffineIndependent ℝ fun i : Fin (D + 1) => s.v i := by
    have hnd := hs.2.2.1
    unfold Nondegenerate at hnd
    rwa [hs.1] at hnd
  obtain ⟨φ, f1, f2⟩ := orthoSeq_exists hD' _ hind (by rw [← orientation_edge]; exact ho.ne')
  obtain ⟨mats, A, B, m1, m2, m3, m4, m5, m6⟩ := rt_rows_spec hD' s hs (fun h => by omega) ho hgj deg φ
    (f1 (deg + 1) (Or.inr (by omega))) f2
  obtain ⟨o1, o2⟩ := hsvd A B m4
  obtain ⟨u1, u2⟩ := union_fields (f2.indep (deg + 1)) svd A B o1 o2
  rw [rt_rows_fields (by omega) f2 deg A B m5 m6] at u1
  have hmem : ((PolySet.ofRows D (expTab s.verts (deg + 1)) mats (unionRows svd A B)).member
      fun i : Fin ((deg + 1 + D).choose D) => φ i) =
      fun i => rowField φ _ ((unionRows svd A B).get i) := by
    funext i; rw [ofRows_member]
  refine ⟨(unionRows svd A B).length, PolySet.ofRows D (expTab s.verts (deg + 1)) mats (unionRows svd A B), ?_, rfl, ?_,
    fun i => φ i, f2.indep (deg + 1), f2.span (deg + 1), m2, m3, ?_, fun w => ?_⟩
  · unfold rtSpace
    simp only [m4, m1, Option.bind_eq_bind, Option.bind_some]
    rfl
  · have h1 := finrank_span_eq_card u2
    rw [u1, finrank_rtSub (by omega) f2, choose_diff (by omega)] at h1
    simpa using h1.symm
  · rw [hmem]; exact u2
  · rw [hmem, u1]; exact mem_rtSub

end
end FIAT
