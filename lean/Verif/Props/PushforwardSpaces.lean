/-
C92: the spaces of Mardal-Tai-Winther, Brezzi-Douglas-Fortin-Marini and Arnold-Winther elements and the Piola mappings they report.
-/
import Verif.Props.PushforwardMatrix
import Verif.Props.PushforwardVector
import Verif.Props.MardalTaiWinther
import Verif.Props.ArnoldWinther
import Verif.Props.BDFM

namespace FIAT
open MvPolynomial
section
variable {D : ℕ}

/-- Specification: the field `w` is a combination of the first `count` basis functions of the element: the values that `tabulate` returns for them
at any point, with the same coefficients at all points, add up to the value of `w`. -/
def InSpan {N m : ℕ} {Cp : Type} (count : ℕ) (el : PolySet ℝ (Fin D → ℝ) N m Cp) (w : Cp → MvPolynomial (Fin D) ℝ) : Prop :=
  ∃ a : Fin m → ℝ, (∀ i : Fin m, count ≤ (i : ℕ) → a i = 0) ∧ ∀ x : Fin D → ℝ, ∃ (r : Dict (List ℕ) (Fin m → Cp → ℕ → ℝ)) (T : Fin m → Cp → ℕ → ℝ),
    el.tabulate [x] 0 = some r ∧ Dict.get? r (List.replicate D 0) = some T ∧ ∀ c, eval x (w c) = ∑ i, a i * T i c 0

/-- Specification: a vector field is in the span of the first `count` basis functions of `el` exactly if its push-forward is in that of `el'`. -/
def SpanCarried {N N' m m' : ℕ} (mapping : PullBack) (A : Matrix (Fin D) (Fin D) ℝ) (b : Fin D → ℝ) (count : ℕ)
    (el : PolySet ℝ (Fin D → ℝ) N m (Fin D)) (el' : PolySet ℝ (Fin D → ℝ) N' m' (Fin D)) : Prop :=
  ∀ w w' : Fin D → MvPolynomial (Fin D) ℝ, (∀ x, Pushes mapping A (fun c => eval x (w c)) fun c => eval (cellMap A b x) (w' c)) →
    (InSpan count el w ↔ InSpan count el' w')

/-- Specification: the same for matrix fields. -/
def MatrixSpanCarried {N N' m m' : ℕ} (mapping : MatrixPullBack) (A : Matrix (Fin D) (Fin D) ℝ) (b : Fin D → ℝ) (count : ℕ)
    (el : PolySet ℝ (Fin D → ℝ) N m (Fin D × Fin D)) (el' : PolySet ℝ (Fin D → ℝ) N' m' (Fin D × Fin D)) : Prop :=
  ∀ u u' : Fin D × Fin D → MvPolynomial (Fin D) ℝ,
    (∀ x, PushesMatrix mapping A (Matrix.of fun i j => eval x (u (i, j))) (Matrix.of fun i j => eval (cellMap A b x) (u' (i, j)))) →
    (InSpan count el u ↔ InSpan count el' u')

theorem inSpan_iff {N m : ℕ} {Cp : Type} {el : PolySet ℝ (Fin D → ℝ) N m Cp} {ψ : Fin m → Cp → MvPolynomial (Fin D) ℝ}
    (ht : ∀ (pts : List (Fin D → ℝ)) (order : ℕ), ∃ res, el.tabulate pts order = some res ∧
      (∀ α, α ∈ Dict.keys res ↔ α.length = D ∧ α.sum ≤ order) ∧
      ∀ α T, Dict.get? res α = some T → ∀ i c (j : ℕ) x, pts[j]? = some x → T i c j = eval x (iterDeriv α (ψ i c)))
    (count : ℕ) (w : Cp → MvPolynomial (Fin D) ℝ) :
    InSpan count el w ↔ w ∈ Submodule.span ℝ {f | ∃ i : Fin m, (i : ℕ) < count ∧ f = ψ i} := by
  have key : ∀ a : Fin m → ℝ, (∀ x : Fin D → ℝ, ∃ (r : Dict (List ℕ) (Fin m → Cp → ℕ → ℝ)) (T : Fin m → Cp → ℕ → ℝ),
      el.tabulate [x] 0 = some r ∧ Dict.get? r (List.replicate D 0) = some T ∧ ∀ c, eval x (w c) = ∑ i, a i * T i c 0) ↔ w = ∑ i, a i • ψ i := by
    intro a
    have hval : ∀ (x : Fin D → ℝ) c, eval x ((∑ i, a i • ψ i) c) = ∑ i, a i * eval x (ψ i c) := by
      intro x c
      simp only [Finset.sum_apply, Pi.smul_apply, map_sum, smul_eval]
    constructor
    · intro h
      funext c
      refine MvPolynomial.funext fun x => ?_
      obtain ⟨r, T, t1, t2, t3⟩ := h x
      obtain ⟨_, e, -, q⟩ := ht [x] 0
      rw [t1, Option.some.injEq] at e
      subst e
      rw [t3, hval]
      exact Finset.sum_congr rfl fun i _ => by rw [q _ _ t2 i c 0 x rfl, iterDeriv_zero]
    · rintro rfl x
      obtain ⟨r, t1, k, q⟩ := ht [x] 0
      obtain ⟨T, t2⟩ := Option.isSome_iff_exists.1 (Dict.get?_isSome_iff.2 ((k (List.replicate D 0)).2 (by simp)))
      refine ⟨r, T, t1, t2, fun c => ?_⟩
      rw [hval]
      exact Finset.sum_congr rfl fun i _ => by rw [q _ _ t2 i c 0 x rfl, iterDeriv_zero]
  unfold InSpan
  simp only [key]
  constructor
  · rintro ⟨a, h1, rfl⟩
    refine Submodule.sum_mem _ fun i _ => ?_
    by_cases hi : (i : ℕ) < count
    · exact Submodule.smul_mem _ _ (Submodule.subset_span ⟨i, hi, rfl⟩)
    · rw [h1 i (not_lt.1 hi), zero_smul]
      exact Submodule.zero_mem _
  · clear key
    intro h
    induction h using Submodule.span_induction with
    | mem f hf =>
      obtain ⟨i, hi, rfl⟩ := hf
      refine ⟨Pi.single i 1, fun j hj => Pi.single_eq_of_ne (fun h => by rw [h] at hj; omega) _, ?_⟩
      rw [Finset.sum_eq_single i (fun j _ hj => by rw [Pi.single_eq_of_ne hj, zero_smul]) (by simp), Pi.single_eq_same, one_smul]
    | zero => exact ⟨0, fun _ _ => rfl, by simp⟩
    | add f g _ _ hf hg =>
      obtain ⟨a, a1, rfl⟩ := hf
      obtain ⟨c, c1, rfl⟩ := hg
      exact ⟨a + c, fun i hi => by rw [Pi.add_apply, a1 i hi, c1 i hi, add_zero], by simp only [Pi.add_apply, add_smul, Finset.sum_add_distrib]⟩
    | smul t f _ hf =>
      obtain ⟨a, a1, rfl⟩ := hf
      exact ⟨t • a, fun i hi => by rw [Pi.smul_apply, a1 i hi, smul_zero], by simp only [Pi.smul_apply, smul_assoc, Finset.smul_sum]⟩

variable {A : Matrix (Fin D) (Fin D) ℝ} {b : Fin D → ℝ} {s s' : SimplexCell (Fin D → ℝ)}

/-! ### The inverse map -/

theorem cellMap_inv (hA : A.det ≠ 0) (b x : Fin D → ℝ) : cellMap A⁻¹ (-A⁻¹.mulVec b) (cellMap A b x) = x := by
  unfold cellMap
  rw [Matrix.mulVec_add, Matrix.mulVec_mulVec, Matrix.nonsing_inv_mul _ (isUnit_iff_ne_zero.2 hA), Matrix.one_mulVec]
  abel

theorem inv_cellMap (hA : A.det ≠ 0) (b y : Fin D → ℝ) : cellMap A b (cellMap A⁻¹ (-A⁻¹.mulVec b) y) = y := by
  unfold cellMap
  rw [Matrix.mulVec_add, Matrix.mulVec_neg, Matrix.mulVec_mulVec, Matrix.mulVec_mulVec, Matrix.mul_nonsing_inv _ (isUnit_iff_ne_zero.2 hA),
    Matrix.one_mulVec, Matrix.one_mulVec]
  abel

theorem det_inv_ne (hA : A.det ≠ 0) : A⁻¹.det ≠ 0 := by
  rw [Matrix.det_nonsing_inv, Ring.inverse_eq_inv']
  exact inv_ne_zero hA

theorem MappedCell.symm (h : MappedCell A b s s') : MappedCell A⁻¹ (-A⁻¹.mulVec b) s' s := by
  refine ⟨det_inv_ne h.regular, h.sd.symm, h.topo.symm, ?_⟩
  rw [h.verts, List.map_map]
  conv_lhs => rw [← List.map_id s.verts]
  exact List.map_congr_left fun x _ => (cellMap_inv h.regular b x).symm

theorem pushes_con_symm (hA : A.det ≠ 0) {w w' : Fin D → MvPolynomial (Fin D) ℝ}
    (h : ∀ x, Pushes .contravariant A (fun c => eval x (w c)) fun c => eval (cellMap A b x) (w' c)) (y : Fin D → ℝ) :
    Pushes .contravariant A⁻¹ (fun c => eval y (w' c)) fun c => eval (cellMap A⁻¹ (-A⁻¹.mulVec b) y) (w c) := by
  have h1 := (pushes_contravariant hA _ _).1 (h (cellMap A⁻¹ (-A⁻¹.mulVec b) y))
  rw [inv_cellMap hA] at h1
  change _ = A⁻¹.det⁻¹ • A⁻¹.mulVec _
  rw [Matrix.det_nonsing_inv, Ring.inverse_eq_inv', inv_inv]
  exact h1

theorem pushes_dcon_symm (hA : A.det ≠ 0) {u u' : Fin D × Fin D → MvPolynomial (Fin D) ℝ}
    (h : ∀ x, PushesMatrix .doubleContravariant A (Matrix.of fun i j => eval x (u (i, j))) (Matrix.of fun i j => eval (cellMap A b x) (u' (i, j))))
    (y : Fin D → ℝ) : PushesMatrix .doubleContravariant A⁻¹ (Matrix.of fun i j => eval y (u' (i, j)))
      (Matrix.of fun i j => eval (cellMap A⁻¹ (-A⁻¹.mulVec b) y) (u (i, j))) := by
  have h1 := (pushes_matrix_iff hA _ _ _).1 (h (cellMap A⁻¹ (-A⁻¹.mulVec b) y))
  rw [inv_cellMap hA] at h1
  change _ = (A⁻¹.det⁻¹ ^ 2) • (A⁻¹ * _ * A⁻¹.transpose)
  rw [Matrix.det_nonsing_inv, Ring.inverse_eq_inv', inv_inv, h1]
  change (A.det • A⁻¹.transpose).transpose * _ * (A.det • A⁻¹.transpose) = _
  rw [Matrix.transpose_smul, Matrix.transpose_transpose, Matrix.smul_mul, Matrix.smul_mul, Matrix.mul_smul, smul_smul, pow_two]

/-! ### Edges -/

theorem onEntity_mapped (h : MappedCell A b s s') {t : List ℕ} (ht : ∀ a ∈ t, a < s.verts.length) {x : Fin D → ℝ} (hx : OnEntity s t x) :
    OnEntity s' t (cellMap A b x) := by
  obtain ⟨c, c1, rfl⟩ := hx
  refine ⟨c, c1, ?_⟩
  have e1 : ∀ t : List ℕ, (∀ a ∈ t, a < s.verts.length) →
      A.mulVec (t.map fun a => c a • s.v a).sum + (t.map c).sum • b = (t.map fun a => c a • s'.v a).sum := by
    intro t
    induction t with
    | nil => simp
    | cons a t ih =>
      intro ht
      simp only [List.map_cons, List.sum_cons]
      rw [← ih fun a ha => ht a (List.mem_cons_of_mem _ ha), h.v (ht a List.mem_cons_self), Matrix.mulVec_add, Matrix.mulVec_smul, add_smul]
      unfold cellMap
      rw [smul_add]
      abel
  have := e1 t ht
  rw [c1, one_smul] at this
  exact this

/-- Normals of a facet of the cell correspond to normals of the facet of the image. -/
theorem normal_mapped (h : MappedCell A b s s') {t : List ℕ} (ht : ∀ a ∈ t, a < s.verts.length) {n : Fin D → ℝ}
    (hn : ∀ a ∈ t, ∀ c ∈ t, ∑ j, n j * (s.v a j - s.v c j) = 0) :
    ∀ a ∈ t, ∀ c ∈ t, ∑ j, (A.det • A⁻¹.transpose.mulVec n) j * (s'.v a j - s'.v c j) = 0 := by
  intro a ha c hc
  have e1 : ∑ j, (A.det • A⁻¹.transpose.mulVec n) j * (s'.v a j - s'.v c j) = A.det * (A⁻¹.transpose.mulVec n ⬝ᵥ A.mulVec (s.v a - s.v c)) := by
    rw [h.v (ht a ha), h.v (ht c hc), ← cellMap_diff A b, dotProduct, Finset.mul_sum]
    exact Finset.sum_congr rfl fun j _ => by rw [Pi.smul_apply, smul_eq_mul, Pi.sub_apply]; ring
  rw [e1, Matrix.mulVec_transpose, ← Matrix.dotProduct_mulVec, Matrix.mulVec_mulVec, Matrix.nonsing_inv_mul _ (isUnit_iff_ne_zero.2 h.regular),
    Matrix.one_mulVec]
  have := hn a ha c hc
  rw [dotProduct]
  simp only [Pi.sub_apply]
  rw [this, mul_zero]

theorem conPull_degree {k : ℕ} {w : Fin D → MvPolynomial (Fin D) ℝ} (hw : ∀ j, (w j).totalDegree ≤ k) (j : Fin D) :
    (conPull A b w j).totalDegree ≤ k := by
  refine totalDegree_finsetSum_le fun l _ => (totalDegree_mul _ _).trans ?_
  rw [totalDegree_C, zero_add]
  exact (degree_pullCell _ _ _).trans (hw l)

theorem conPull_normal (w : Fin D → MvPolynomial (Fin D) ℝ) (n x : Fin D → ℝ) :
    ∑ j, n j * eval x (conPull A b w j) = ∑ j, (A.det • A⁻¹.transpose.mulVec n) j * eval (cellMap A b x) (w j) := by
  simp only [eval_conPull, Finset.mul_sum, Pi.smul_apply, smul_eq_mul, Matrix.mulVec, dotProduct, Matrix.transpose_apply, Finset.sum_mul]
  rw [Finset.sum_comm]
  exact Finset.sum_congr rfl fun l _ => Finset.sum_congr rfl fun j _ => by ring

end

section
variable {A : Matrix (Fin 2) (Fin 2) ℝ} {b : Fin 2 → ℝ} {s s' : SimplexCell (Fin 2 → ℝ)}

theorem edges_pulled (hs : ProperSimplex ℝ s) (h : MappedCell A b s s') {k : ℕ} {N : (Fin 2 → ℝ) → (Fin 2 → ℝ) → ℝ} {N' : (Fin 2 → ℝ) → (Fin 2 → ℝ) → ℝ}
    (hN : ∀ x n, N x n = N' (cellMap A b x) (A.det • A⁻¹.transpose.mulVec n))
    (hw : ∀ e t, HasEntity s'.topo 1 e t → ∀ n : Fin 2 → ℝ, (∀ a ∈ t, ∀ c ∈ t, ∑ j, n j * (s'.v a j - s'.v c j) = 0) →
      ∃ p : MvPolynomial (Fin 2) ℝ, p.totalDegree ≤ k ∧ ∀ x, OnEntity s' t x → N' x n = eval x p) :
    ∀ e t, HasEntity s.topo 1 e t → ∀ n : Fin 2 → ℝ, (∀ a ∈ t, ∀ c ∈ t, ∑ j, n j * (s.v a j - s.v c j) = 0) →
      ∃ p : MvPolynomial (Fin 2) ℝ, p.totalDegree ≤ k ∧ ∀ x, OnEntity s t x → N x n = eval x p := by
  intro e t ht n hn
  obtain ⟨-, -, hlt⟩ := hs.2.1.entity _ _ _ ht
  have hlt' : ∀ a ∈ t, a < s.verts.length := fun a ha => by rw [hs.2.1.nverts]; exact hlt a ha
  obtain ⟨p, p1, p2⟩ := hw e t (by rw [h.topo]; exact ht) _ (normal_mapped h hlt' hn)
  refine ⟨pullCell A b p, (degree_pullCell _ _ _).trans p1, fun x hx => ?_⟩
  rw [hN, eval_pullCell]
  exact p2 _ (onEntity_mapped h hlt' hx)

/-- The divergence of a contravariant pull-back. -/
theorem div_conPull (hA : A.det ≠ 0) (w : Fin 2 → MvPolynomial (Fin 2) ℝ) (x : Fin 2 → ℝ) :
    eval x (pderiv 0 (conPull A b w 0) + pderiv 1 (conPull A b w 1)) = A.det * eval (cellMap A b x) (pderiv 0 (w 0) + pderiv 1 (w 1)) := by
  have h1 : A * A⁻¹ = 1 := Matrix.mul_nonsing_inv _ (isUnit_iff_ne_zero.2 hA)
  have e : ∀ i j, ∑ k, A i k * A⁻¹ k j = if i = j then 1 else 0 := fun i j => by
    have := congrFun (congrFun h1 i) j
    rwa [Matrix.mul_apply, Matrix.one_apply] at this
  have e00 := e 0 0
  have e01 := e 0 1
  have e10 := e 1 0
  have e11 := e 1 1
  simp only [Fin.sum_univ_two, if_true, Fin.isValue, zero_ne_one, one_ne_zero, if_false] at e00 e01 e10 e11
  unfold conPull
  simp only [map_add, map_sum, Derivation.leibniz, pderiv_C, smul_zero, add_zero, smul_eq_mul, pderiv_pullCell, map_mul, eval_C, eval_pullCell,
    Fin.sum_univ_two, map_zero, mul_zero, add_zero]
  linear_combination A.det * eval (cellMap A b x) (pderiv 0 (w 0)) * e00 + A.det * eval (cellMap A b x) (pderiv 1 (w 0)) * e10 +
    A.det * eval (cellMap A b x) (pderiv 0 (w 1)) * e01 + A.det * eval (cellMap A b x) (pderiv 1 (w 1)) * e11

theorem mtw_pulled (hs : ProperSimplex ℝ s) (h : MappedCell A b s s') {w w' : Fin 2 → MvPolynomial (Fin 2) ℝ}
    (hw : ∀ x, Pushes .contravariant A (fun c => eval x (w c)) fun c => eval (cellMap A b x) (w' c)) (h' : IsMTW s' w') : IsMTW s w := by
  obtain rfl := (pushes_con_iff h.regular b w w').1 hw
  obtain ⟨h1, ⟨k, h2⟩, h3⟩ := h'
  refine ⟨conPull_degree h1, ⟨A.det * k, fun x => ?_⟩, edges_pulled hs h (fun x n => conPull_normal w' n x) h3⟩
  rw [div_conPull h.regular, h2]

theorem bdfm_pulled (hs : ProperSimplex ℝ s) (h : MappedCell A b s s') {w w' : Fin 2 → MvPolynomial (Fin 2) ℝ}
    (hw : ∀ x, Pushes .contravariant A (fun c => eval x (w c)) fun c => eval (cellMap A b x) (w' c)) (h' : IsBDFM s' w') : IsBDFM s w := by
  obtain rfl := (pushes_con_iff h.regular b w w').1 hw
  exact ⟨conPull_degree h'.1, edges_pulled hs h (fun x n => conPull_normal w' n x) h'.2⟩

theorem awnc_pulled (hs : ProperSimplex ℝ s) (h : MappedCell A b s s') {u u' : Fin 2 × Fin 2 → MvPolynomial (Fin 2) ℝ}
    (hu : ∀ x, PushesMatrix .doubleContravariant A (Matrix.of fun i j => eval x (u (i, j))) (Matrix.of fun i j => eval (cellMap A b x) (u' (i, j))))
    (h' : IsAWNC s' u') : IsAWNC s u := by
  obtain rfl := (pushes_field_iff h.regular b _ u u').1 hu
  refine ⟨pullWith_sym _ _ _ h'.1, edges_pulled hs h (N := fun x n => quadForm _ x n n) (N' := fun x n => quadForm u' x n n) (fun x n => ?_) h'.2⟩
  beta_reduce
  rw [quadForm_pullWith]
  change quadForm u' _ ((A.det • A⁻¹.transpose).mulVec n) ((A.det • A⁻¹.transpose).mulVec n) = _
  rw [Matrix.smul_mulVec]

theorem aw_pulled (hA : A.det ≠ 0) {u u' : Fin 2 × Fin 2 → MvPolynomial (Fin 2) ℝ}
    (hu : ∀ x, PushesMatrix .doubleContravariant A (Matrix.of fun i j => eval x (u (i, j))) (Matrix.of fun i j => eval (cellMap A b x) (u' (i, j))))
    (h' : IsAW u') : IsAW u := by
  obtain rfl := (pushes_field_iff hA b _ u u').1 hu
  refine ⟨pullWith_sym _ _ _ h'.1, fun i => ?_⟩
  have hq : pderiv 0 (pullWith (pushFactor .doubleContravariant A) A b u' (i, 0)) + pderiv 1 (pullWith (pushFactor .doubleContravariant A) A b u' (i, 1)) =
      ∑ k, C (pushFactor .doubleContravariant A k i * A.det) * pullCell A b (pderiv 0 (u' (k, 0)) + pderiv 1 (u' (k, 1))) := by
    have hrow : ∀ j, pullWith (pushFactor .doubleContravariant A) A b u' (i, j) =
        ∑ k, C (pushFactor .doubleContravariant A k i) * conPull A b (fun l => u' (k, l)) j := by
      intro j
      refine MvPolynomial.funext fun x => ?_
      rw [eval_pullWith, map_sum]
      refine Finset.sum_congr rfl fun k _ => ?_
      rw [map_mul, eval_C, eval_conPull, Finset.mul_sum]
      exact Finset.sum_congr rfl fun l _ => rfl
    refine MvPolynomial.funext fun x => ?_
    rw [hrow, hrow, map_sum, map_sum, ← Finset.sum_add_distrib, map_sum, map_sum]
    refine Finset.sum_congr rfl fun k _ => ?_
    have h1 := div_conPull (b := b) hA (fun l => u' (k, l)) x
    rw [Derivation.leibniz, Derivation.leibniz, pderiv_C, pderiv_C, smul_zero, smul_zero, add_zero, add_zero, smul_eq_mul, smul_eq_mul, ← mul_add,
      map_mul, h1, map_mul, eval_C, eval_C, eval_pullCell]
    ring
  rw [hq]
  refine totalDegree_finsetSum_le fun k _ => (totalDegree_mul _ _).trans ?_
  rw [totalDegree_C, zero_add]
  exact (degree_pullCell _ _ _).trans (h'.2 k)

/-- C92, Mardal-Tai-Winther. -/
theorem mardal_tai_winther_carried {gj : ℕ → ℕ → List ℝ} (hgj : NodesOK gj) {leg : ℕ → List ℝ × List ℝ} (hleg : IsLeggauss 7 (leg 7).1 (leg 7).2)
    (hs : ProperSimplex ℝ s) (hnum : NumberedSimplex s) (ho : 0 < orientation fun i : Fin 3 => s.v i) (h : MappedCell A b s s') (hA : 0 < A.det)
    {nrm nrm' : ℕ → Option (Fin 2 → ℝ)} (hn : FacetNormals s nrm) (hn' : FacetNormals s' nrm') :
    ∃ m el nodes ids m' el' nodes' ids', mardalTaiWinther gj leg s nrm 3 = some (⟨m, el⟩, nodes, ids) ∧
      mardalTaiWinther gj leg s' nrm' 3 = some (⟨m', el'⟩, nodes', ids') ∧ SpanCarried (declaredMapping .mardalTaiWinther) A b 9 el el' := by
  have hs' := h.proper hs
  have ho' : 0 < orientation fun i : Fin 3 => s'.v i := by
    rw [h.orientation hs]
    exact mul_pos hA ho
  obtain ⟨m, el, nodes, ids, ψ, h1, -, -, h2, -, -, -, -, -, h3⟩ := mardal_tai_winther_spec hgj hleg s hs hnum ho hn
  obtain ⟨m', el', nodes', ids', ψ', h1', -, -, h2', -, -, -, -, -, h3'⟩ := mardal_tai_winther_spec hgj hleg s' hs' (numbered_mapped h hnum) ho' hn'
  refine ⟨m, el, nodes, ids, m', el', nodes', ids', h1, h1', fun w w' hw => ?_⟩
  rw [inSpan_iff h2.2.2.2, inSpan_iff h2'.2.2.2, h3, h3']
  exact ⟨mtw_pulled hs' h.symm (pushes_con_symm h.regular hw), mtw_pulled hs h hw⟩

theorem bdfm_span {N m : ℕ} {el : PolySet ℝ (Fin 2 → ℝ) N m (Fin 2)} {nodes : List (Functional ℝ (Fin 2 → ℝ))} (h : IsNodalElement (IsBDFM s) nodes el)
    (w : Fin 2 → MvPolynomial (Fin 2) ℝ) : InSpan m el w ↔ IsBDFM s w := by
  obtain ⟨ψ, a1, a2, -, a4⟩ := h
  rw [inSpan_iff a4]
  have hset : {f | ∃ i : Fin m, (i : ℕ) < m ∧ f = ψ i} = Set.range ψ := by
    ext f
    constructor
    · rintro ⟨i, -, rfl⟩
      exact ⟨i, rfl⟩
    · rintro ⟨i, rfl⟩
      exact ⟨i, i.2, rfl⟩
  rw [hset]
  refine ⟨fun hw => ?_, a2 w⟩
  induction hw using Submodule.span_induction with
  | mem f hf => obtain ⟨i, rfl⟩ := hf; exact a1 i
  | zero => exact ⟨fun j => by simp, fun e t _ n _ => ⟨0, by simp, fun x _ => by simp⟩⟩
  | add f g _ _ hf hg =>
    refine ⟨fun j => (totalDegree_add _ _).trans (max_le (hf.1 j) (hg.1 j)), fun e t ht n hn => ?_⟩
    obtain ⟨p, p1, p2⟩ := hf.2 e t ht n hn
    obtain ⟨q, q1, q2⟩ := hg.2 e t ht n hn
    refine ⟨p + q, (totalDegree_add _ _).trans (max_le p1 q1), fun x hx => ?_⟩
    rw [map_add, ← p2 x hx, ← q2 x hx, ← Finset.sum_add_distrib]
    exact Finset.sum_congr rfl fun j _ => by rw [Pi.add_apply, map_add, mul_add]
  | smul c f _ hf =>
    refine ⟨fun j => (totalDegree_smul_le _ _).trans (hf.1 j), fun e t ht n hn => ?_⟩
    obtain ⟨p, p1, p2⟩ := hf.2 e t ht n hn
    refine ⟨c • p, (totalDegree_smul_le _ _).trans p1, fun x hx => ?_⟩
    rw [smul_eval, ← p2 x hx, Finset.mul_sum]
    exact Finset.sum_congr rfl fun j _ => by rw [Pi.smul_apply, smul_eval]; ring

/-- C92, Brezzi-Douglas-Fortin-Marini. -/
theorem bdfm_carried (hs : ProperSimplex ℝ s) (hnum : NumberedSimplex s) (h : MappedCell A b s s')
    {nrm nrm' : ℕ → Option (Fin 2 → ℝ)} (hn : FacetNormals s nrm) (hn' : FacetNormals s' nrm')
    (svd : List (Fin 2 → Fin ((2 + 2).choose 2) → ℝ) → List ℝ × List (Fin 2 → Fin ((2 + 2).choose 2) → ℝ))
    (hsvd : ∀ A B, bdfmRows 2 s = some (A, B) → SvdOK svd (A ++ B)) (hsvd' : ∀ A B, bdfmRows 2 s' = some (A, B) → SvdOK svd (A ++ B)) :
    ∃ el nodes ids el' nodes' ids', brezziDouglasFortinMarini 2 svd s nrm = some (⟨9, el⟩, nodes, ids) ∧
      brezziDouglasFortinMarini 2 svd s' nrm' = some (⟨9, el'⟩, nodes', ids') ∧
      SpanCarried (declaredMapping .brezziDouglasFortinMarini) A b 9 el el' := by
  have hs' := h.proper hs
  obtain ⟨m, el, nodes, ids, h1, rfl, -, -, -, h2⟩ := brezzi_douglas_fortin_marini_spec s hs hnum hn svd hsvd
  obtain ⟨m', el', nodes', ids', h1', rfl, -, -, -, h2'⟩ := brezzi_douglas_fortin_marini_spec s' hs' (numbered_mapped h hnum) hn' svd hsvd'
  refine ⟨el, nodes, ids, el', nodes', ids', h1, h1', fun w w' hw => ?_⟩
  rw [bdfm_span h2, bdfm_span h2']
  exact ⟨bdfm_pulled hs' h.symm (pushes_con_symm h.regular hw), bdfm_pulled hs h hw⟩

/-- C92, the conforming Arnold-Winther element. -/
theorem arnold_winther_carried {gj : ℕ → ℕ → List ℝ} (hgj : NodesOK gj) {leg : ℕ → List ℝ × List ℝ} (hleg : IsLeggauss 7 (leg 7).1 (leg 7).2)
    (hs : ProperSimplex ℝ s) (hnum : NumberedSimplex s) (ho : 0 < orientation fun i : Fin 3 => s.v i) (h : MappedCell A b s s') (hA : 0 < A.det)
    {nrm nrm' : ℕ → Option (Fin 2 → ℝ)} (hn : FacetNormals s nrm) (hn' : FacetNormals s' nrm') (sv sv' : ℕ → List ℝ) :
    ∃ el nodes ids el' nodes' ids', arnoldWinther gj leg s nrm sv 3 = some (el, nodes, ids) ∧
      arnoldWinther gj leg s' nrm' sv' 3 = some (el', nodes', ids') ∧ MatrixSpanCarried (declaredMatrixMapping .arnoldWinther) A b 24 el el' := by
  have hs' := h.proper hs
  have ho' : 0 < orientation fun i : Fin 3 => s'.v i := by
    rw [h.orientation hs]
    exact mul_pos hA ho
  obtain ⟨el, nodes, ids, ψ, h1, -, h2, -, -, -, -, -, -, h3⟩ := arnold_winther_spec hgj hleg s hs hnum ho hn sv
  obtain ⟨el', nodes', ids', ψ', h1', -, h2', -, -, -, -, -, -, h3'⟩ := arnold_winther_spec hgj hleg s' hs' (numbered_mapped h hnum) ho' hn' sv'
  refine ⟨el, nodes, ids, el', nodes', ids', h1, h1', fun u u' hu => ?_⟩
  rw [inSpan_iff h2.2.2.2, inSpan_iff h2'.2.2.2, h3, h3']
  exact ⟨aw_pulled (det_inv_ne h.regular) (pushes_dcon_symm h.regular hu), aw_pulled h.regular hu⟩

/-- C92, the nonconforming Arnold-Winther element. -/
theorem arnold_winther_nc_carried {gj : ℕ → ℕ → List ℝ} (hgj : NodesOK gj) {leg : ℕ → List ℝ × List ℝ} (hleg : IsLeggauss 7 (leg 7).1 (leg 7).2)
    (hs : ProperSimplex ℝ s) (hnum : NumberedSimplex s) (ho : 0 < orientation fun i : Fin 3 => s.v i) (h : MappedCell A b s s') (hA : 0 < A.det)
    {nrm nrm' : ℕ → Option (Fin 2 → ℝ)} (hn : FacetNormals s nrm) (hn' : FacetNormals s' nrm') (sv sv' : ℕ → List ℝ) :
    ∃ el nodes ids el' nodes' ids', arnoldWintherNC gj leg s nrm sv 2 = some (el, nodes, ids) ∧
      arnoldWintherNC gj leg s' nrm' sv' 2 = some (el', nodes', ids') ∧ MatrixSpanCarried (declaredMatrixMapping .arnoldWintherNC) A b 15 el el' := by
  have hs' := h.proper hs
  have ho' : 0 < orientation fun i : Fin 3 => s'.v i := by
    rw [h.orientation hs]
    exact mul_pos hA ho
  obtain ⟨el, nodes, ids, ψ, h1, -, h2, -, -, -, -, -, -, -, h3⟩ := arnold_winther_nc_spec hgj hleg s hs hnum ho hn sv
  obtain ⟨el', nodes', ids', ψ', h1', -, h2', -, -, -, -, -, -, -, h3'⟩ := arnold_winther_nc_spec hgj hleg s' hs' (numbered_mapped h hnum) ho' hn' sv'
  refine ⟨el, nodes, ids, el', nodes', ids', h1, h1', fun u u' hu => ?_⟩
  rw [inSpan_iff h2.2.2.2, inSpan_iff h2'.2.2.2, h3, h3']
  exact ⟨awnc_pulled hs' h.symm (pushes_dcon_symm h.regular hu), awnc_pulled hs h hu⟩

end
end FIAT
