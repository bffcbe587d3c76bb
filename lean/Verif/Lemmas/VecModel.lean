/-
Facts about the helpers used by the H(div) and H(curl) elements: quadrature on a simplex, values of orthonormal sets,
`take`, dimension counts.
-/
import Verif.Lemmas.VecSpan
import Verif.Lemmas.Bernstein
import Verif.Props.EndToEnd
import Verif.Props.CreateQuadrature
import Verif.Props.OnCoeffs
import Verif.Props.PolyDim

namespace FIAT
open MvPolynomial MeasureTheory

theorem flatMap_eq_product {α β γ : Type} (l : List α) (m : List β) (f : α → β → γ) :
    (l.flatMap fun x => m.map fun y => f x y) = (l ×ˢ m).map fun p => f p.1 p.2 := by
  show _ = (List.product l m).map _
  unfold List.product
  rw [List.map_flatMap]
  congr 1
  funext x
  rw [List.map_map]; rfl

private theorem mapped_nodup {d : ℕ} (v : Fin (d + 1) → Fin d → ℝ) (pts : List (Fin d → ℝ)) (ws : List ℝ)
    (hl : ws.length = pts.length) (hne : ws ≠ []) (R : QRule ℝ (Fin d → ℝ))
    (hR : mappedRule (List.ofFn v) pts ws = some R) (hw : ∀ w ∈ R.wts, 0 < w) (hn : pts.Nodup) :
    R.wts.length = R.pts.length ∧ R.pts.Nodup := by
  obtain ⟨A, b, R', h1, -, h3, h4, -⟩ := mapped_rule_spec v pts ws hl
  rw [hR, Option.some.injEq] at h1
  subst h1
  refine ⟨by rw [h3, h4]; simpa using hl, ?_⟩
  rw [h3]
  refine hn.map ?_
  have hdet : A.det ≠ 0 := by
    intro h0
    obtain ⟨w, hw'⟩ := List.exists_mem_of_ne_nil _ hne
    have := hw (A.det * w) (by rw [h4]; exact List.mem_map.2 ⟨w, hw', rfl⟩)
    rw [h0, zero_mul] at this
    exact lt_irrefl _ this
  intro x y hxy
  have hu : IsUnit A := (Matrix.isUnit_iff_isUnit_det A).2 (isUnit_iff_ne_zero.2 hdet)
  exact Matrix.mulVec_injective_of_isUnit hu (by simpa using hxy)

private theorem rule_1 (gj : ℕ → ℕ → List ℝ) (verts : List (Fin 1 → ℝ)) (m : ℕ) :
    simplexRule gj 1 verts m = if m = 0 then none else gaussLineRule verts m (gj 0 m) := rfl
private theorem rule_2 (gj : ℕ → ℕ → List ℝ) (verts : List (Fin 2 → ℝ)) (m : ℕ) :
    simplexRule gj 2 verts m = if m = 0 then none else collapsedTriangleRule verts m (gj 0 m) (gj 1 m) := rfl
private theorem rule_3 (gj : ℕ → ℕ → List ℝ) (verts : List (Fin 3 → ℝ)) (m : ℕ) :
    simplexRule gj 3 verts m = if m = 0 then none else collapsedTetrahedronRule verts m (gj 0 m) (gj 1 m) (gj 2 m) := rfl

/-- `make_quadrature` on a simplex with positive orientation: exact to degree `2 m - 1`, positive weights, distinct points
inside the simplex. -/
theorem simplex_rule_spec {gj : ℕ → ℕ → List ℝ} (hgj : NodesOK gj) {D : ℕ} (hD : D = 1 ∨ D = 2 ∨ D = 3)
    (v : Fin (D + 1) → Fin D → ℝ) (hv : 0 < orientation v) (m : ℕ) (hm : 1 ≤ m) :
    ∃ R, simplexRule gj D (List.ofFn v) m = some R ∧ GoodRule R v (2 * m - 1) ∧ R.wts.length = R.pts.length ∧ R.pts.Nodup := by
  have hx : GaussNodes 0 0 m (gj 0 m) := by simpa using hgj 0 m
  have hy : GaussNodes 1 0 m (gj 1 m) := by simpa using hgj 1 m
  have hz : GaussNodes 2 0 m (gj 2 m) := by simpa using hgj 2 m
  have hix : ∀ x ∈ gj 0 m, -1 < x ∧ x < 1 := gauss_nodes_interior 0 0 m _ (by simpa using hgj 0 m)
  have hiy : ∀ x ∈ gj 1 m, -1 < x ∧ x < 1 := gauss_nodes_interior 1 0 m _ (by simpa using hgj 1 m)
  have hiz : ∀ x ∈ gj 2 m, -1 < x ∧ x < 1 := gauss_nodes_interior 2 0 m _ (by simpa using hgj 2 m)
  have l1 : ∀ a xs, (gaussJacobiWeights a 0 m xs).length = xs.length := by intro a xs; simp [gaussJacobiWeights]
  have ne : ∀ a xs, GaussNodes a 0 m xs → gaussJacobiWeights a 0 m xs ≠ [] := by
    intro a xs h
    rw [← List.length_pos_iff, l1, h.1]; omega
  have hm0 : m ≠ 0 := by omega
  rcases hD with rfl | rfl | rfl
  · obtain ⟨R, h1, h2, -⟩ := gauss_line_exact v hv m hm _ hx
    refine ⟨R, by rw [rule_1, if_neg hm0, h1], h2, ?_⟩
    refine mapped_nodup v _ _ (by simp [gaussJacobiRule, l1]) (ne 0 _ hx) R h1 h2.2.1 ?_
    exact hx.2.1.map fun a b h => congrFun h 0
  · obtain ⟨R, h1, h2, -⟩ := collapsed_triangle_exact v hv m hm _ _ hx hy
    refine ⟨R, by rw [rule_2, if_neg hm0, h1], h2, ?_⟩
    refine mapped_nodup v _ _ (by simp [gaussJacobiRule, l1, List.length_flatMap]) ?_ R h1 h2.2.1 ?_
    · rw [flatMap_eq_product]
      obtain ⟨a, ha⟩ := List.exists_mem_of_ne_nil _ (ne 0 _ hx)
      obtain ⟨b, hb⟩ := List.exists_mem_of_ne_nil _ (ne 1 _ hy)
      exact List.ne_nil_of_mem (List.mem_map.2 ⟨(a, b), List.pair_mem_product.2 ⟨ha, hb⟩, rfl⟩)
    · rw [flatMap_eq_product]
      refine (hx.2.1.product hy.2.1).map_on ?_
      rintro ⟨a, b⟩ hab ⟨a', b'⟩ hab' h
      obtain ⟨ha, hb⟩ := List.pair_mem_product.1 hab
      have e1 : b = b' := by simpa [xiTriangle] using congrFun h 1
      subst e1
      have e0 := congrFun h 0
      simp only [xiTriangle, Matrix.cons_val_zero] at e0
      have hb1 := (hiy b hb).2
      have : (a - a') * (1 - b) = 0 := by linarith
      rcases mul_eq_zero.1 this with h | h
      · rw [sub_eq_zero.1 h]
      · linarith
  · obtain ⟨R, h1, h2, -⟩ := collapsed_tetrahedron_exact v hv m hm _ _ _ hx hy hz
    refine ⟨R, by rw [rule_3, if_neg hm0, h1], h2, ?_⟩
    refine mapped_nodup v _ _ (by simp [gaussJacobiRule, l1, List.length_flatMap]) ?_ R h1 h2.2.1 ?_
    · obtain ⟨a, ha⟩ := List.exists_mem_of_ne_nil _ (ne 0 _ hx)
      obtain ⟨b, hb⟩ := List.exists_mem_of_ne_nil _ (ne 1 _ hy)
      obtain ⟨c, hc⟩ := List.exists_mem_of_ne_nil _ (ne 2 _ hz)
      exact List.ne_nil_of_mem (List.mem_flatMap.2 ⟨a, ha, List.mem_flatMap.2 ⟨b, hb, List.mem_map.2 ⟨c, hc, rfl⟩⟩⟩)
    · have e : ∀ x : ℝ, ((gaussJacobiRule 1 0 m (gj 1 m)).pts.flatMap fun y => (gaussJacobiRule 2 0 m (gj 2 m)).pts.map fun z =>
          xiTetrahedron x y z) = (gj 1 m ×ˢ gj 2 m).map fun p => xiTetrahedron x p.1 p.2 := fun x => flatMap_eq_product _ _ _
      simp only [e]
      rw [flatMap_eq_product]
      refine (hx.2.1.product (hy.2.1.product hz.2.1)).map_on ?_
      rintro ⟨a, b, c⟩ habc ⟨a', b', c'⟩ - h
      obtain ⟨ha, hbc⟩ := List.pair_mem_product.1 habc
      obtain ⟨hb, hc⟩ := List.pair_mem_product.1 hbc
      have e1 : c = c' := by simpa [xiTetrahedron] using congrFun h 2
      subst e1
      have hc1 := (hiz c hc).2
      have hb1 := (hiy b hb).2
      have e0 := congrFun h 1
      simp only [xiTetrahedron, Matrix.cons_val_one, Matrix.cons_val_zero] at e0
      have e2 : b = b' := by
        have : (b - b') * (1 - c) = 0 := by linarith
        rcases mul_eq_zero.1 this with h | h
        · exact sub_eq_zero.1 h
        · linarith
      subst e2
      have e3 := congrFun h 0
      simp only [xiTetrahedron, Matrix.cons_val_zero] at e3
      have : (a - a') * ((1 - b) * (1 - c)) = 0 := by linarith
      rcases mul_eq_zero.1 this with h | h
      · rw [sub_eq_zero.1 h]
      · rcases mul_eq_zero.1 h with h | h <;> linarith

/-- A sum over points, weights and their numbers, when the values are those of a function. -/
theorem sum_zip_values {P : Type} (pts : List P) (wts : List ℝ) (hl : wts.length = pts.length) (f : P → ℝ) (g : P → ℝ → ℕ → ℝ)
    (h : ∀ (j : ℕ) x w, pts[j]? = some x → g x w j = w * f x) :
    ((pts.zip wts).zipIdx.map fun q => g q.1.1 q.1.2 q.2).sum = (⟨pts, wts⟩ : QRule ℝ P).integrate f := by
  unfold QRule.integrate
  simp only
  have : (pts.zip wts).zipIdx.map (fun q => g q.1.1 q.1.2 q.2) = (pts.zip wts).zipIdx.map fun q => q.1.2 * f q.1.1 := by
    refine List.map_congr_left fun q hq => ?_
    have h1 := List.mem_zipIdx' hq
    refine h _ _ _ ?_
    rw [h1.2, List.getElem_zip]
    simp
  rw [this]
  have e : (pts.zip wts).zipIdx.map (fun q => q.1.2 * f q.1.1) = (pts.zip wts).map fun xw => xw.2 * f xw.1 := by
    conv_rhs => rw [← List.zipIdx_map_fst 0 (pts.zip wts)]
    rw [List.map_map]; rfl
  rw [e]

/-- `tabulate(pts)[(0, ..., 0)]`. -/
theorem values_spec {D N m : ℕ} {Cp : Type} (hD : 1 ≤ D) (φ : Fin N → MvPolynomial (Fin D) ℝ)
    (S : PolySet ℝ (Fin D → ℝ) N m Cp) (hsd : S.sd = D) (hb : BaseSpec φ S.base) (hd : DmatSpec φ S.dmats)
    (pts : List (Fin D → ℝ)) :
    ∃ T, S.values pts = some T ∧ ∀ i c (j : ℕ) x, pts[j]? = some x → T i c j = eval x (S.member φ i c) := by
  obtain ⟨res, h1, -, h3, h4⟩ := tabulate_spec hD φ S hsd hb hd pts 0
  have hk : List.replicate D 0 ∈ Dict.keys res := (h3 _).2 ⟨by simp, by simp⟩
  obtain ⟨T, hT⟩ := Option.isSome_iff_exists.1 (Dict.get?_isSome_iff.2 hk)
  refine ⟨T, ?_, fun i c j x hx => ?_⟩
  · unfold PolySet.values
    rw [h1, Option.bind_some, hsd, hT]
  · have := h4 _ T hT i c j x hx
    rw [this]
    have : iterDeriv (List.replicate D 0) (S.member φ i c) = S.member φ i c := by
      exact iterDeriv_zero _
    rw [this]

theorem scalar_member {D N : ℕ} (φ : Fin N → MvPolynomial (Fin D) ℝ) (base : List (Fin D → ℝ) → ℕ → ℕ → ℝ)
    (mats : List (Matrix (Fin N) (Fin N) ℝ)) (i : Fin N) (c : Unit) : (onScalarSet N D base mats).member φ i c = φ i := by
  unfold PolySet.member onScalarSet
  simp only
  rw [Finset.sum_eq_single i]
  · simp
  · intro b _ hb; simp [Ne.symm hb]
  · simp

theorem polyDim_nat {D : ℕ} (hD : D = 1 ∨ D = 2 ∨ D = 3) (n : ℕ) : polyDim D (n : ℤ) = some ((n + D).choose D) := by
  unfold polyDim
  rw [polynomial_dimension_eq_dimP D n (by omega) (by omega)]
  simp [dimP, finrank_restrictTotalDegree]

theorem polyDim_succ {D : ℕ} (hD : D = 1 ∨ D = 2 ∨ D = 3) (n : ℕ) : polyDim D ((n : ℤ) + 1) = some ((n + 1 + D).choose D) := by
  have := polyDim_nat hD (n + 1)
  push_cast at this
  exact this

theorem polyDim_pred {D : ℕ} (hD : D = 1 ∨ D = 2 ∨ D = 3) (n : ℕ) : polyDim D ((n : ℤ) - 1) = some (dimLower D n) := by
  cases n with
  | zero =>
    obtain ⟨h1, h2, h3⟩ := polynomial_dimension_neg_partial (-1) (by norm_num)
    have e : ((0 : ℕ) : ℤ) - 1 = -1 := by norm_num
    rw [e]
    unfold polyDim dimLower
    rcases hD with rfl | rfl | rfl
    · rw [show (1 : ℕ) = LINE from rfl, h1]; rfl
    · rw [show (2 : ℕ) = TRIANGLE from rfl, h3 (by norm_num)]; rfl
    · rw [show (3 : ℕ) = TETRAHEDRON from rfl, h2]; rfl
  | succ n =>
    have e : ((n + 1 : ℕ) : ℤ) - 1 = (n : ℤ) := by push_cast; ring
    rw [e, polyDim_nat hD, dimLower, if_neg (by omega)]
    rfl

/-- The row of `e_p φ_k`. -/
def unitRow (D N : ℕ) (p k : ℕ) : Fin D → Fin N → ℝ := fun c l => if (c : ℕ) = p ∧ (l : ℕ) = k then 1 else 0

theorem onVectorRows_get (N D : ℕ) (p k : ℕ) (hp : p < D) (hk : k < N) :
    (onVectorRows N D)[p * N + k]? = some (unitRow D N p k) := by
  unfold onVectorRows
  have hn : onNumMembers N [D] = D * N := by simp [onNumMembers]
  have hlt : p * N + k < D * N := by
    calc p * N + k < p * N + N := by omega
      _ = (p + 1) * N := by ring
      _ ≤ D * N := Nat.mul_le_mul_right _ hp
  rw [List.getElem?_map, List.getElem?_range (by rw [hn]; exact hlt), Option.map_some]
  congr 1
  funext c i
  have hi : (indexIterator [D])[p]? = some [p] := by
    simp [indexIterator, hp]
  rw [(on_coeffs_spec N [D] (by simp)).2 p [p] k hi hk]
  simp [unitRow]

/-- `take` of the blocks `lo ≤ k < hi` of every component. -/
theorem takeRows_blocks (N D lo hi : ℕ) (hhi : hi ≤ N) :
    takeRows (onVectorRows N D) (blockIndices D N lo hi) =
      some ((List.range D).flatMap fun p => (List.range (hi - lo)).map fun k => unitRow D N p (lo + k)) := by
  unfold takeRows blockIndices
  have e : ((List.range D).flatMap fun i => List.range' (i * N + lo) (hi - lo)) =
      ((List.range D).flatMap fun p => (List.range (hi - lo)).map fun k => (p, k)).map fun q => q.1 * N + lo + q.2 := by
    rw [List.map_flatMap]
    congr 1
    funext i
    rw [List.map_map, List.range'_eq_map_range]
    rfl
  rw [e, List.mapM_map]
  have e2 : ((List.range D).flatMap fun p => (List.range (hi - lo)).map fun k => unitRow D N p (lo + k)) =
      ((List.range D).flatMap fun p => (List.range (hi - lo)).map fun k => (p, k)).map fun q => unitRow D N q.1 (lo + q.2) := by
    rw [List.map_flatMap]
    congr 1
    funext i
    rw [List.map_map]
    rfl
  rw [e2]
  apply mapM_some_map
  intro q hq
  simp only [List.mem_flatMap, List.mem_range, List.mem_map] at hq
  obtain ⟨p, hp, k, hk, rfl⟩ := hq
  have := onVectorRows_get N D p (lo + k) hp (by omega)
  rw [← Nat.add_assoc] at this
  exact this

/-- `take` of consecutive members. -/
theorem takeRows_ofFn {R : Type} {N : ℕ} (f : Fin N → R) (lo n : ℕ) (h : lo + n ≤ N) :
    takeRows (List.ofFn f) (List.range' lo n) = some ((List.finRange n).map fun (i : Fin n) => f ⟨lo + (i : ℕ), by have := i.2; omega⟩) := by
  unfold takeRows
  rw [List.range'_eq_map_range, List.mapM_map, ← List.map_coe_finRange_eq_range, List.mapM_map]
  apply mapM_some_map
  intro i _
  simp only [Function.comp_apply]
  rw [List.getElem?_ofFn, dif_pos (by have := i.2; omega)]

theorem rowField_unitRow {D N : ℕ} (φ : ℕ → MvPolynomial (Fin D) ℝ) (p k : ℕ) (hp : p < D) (hk : k < N) :
    rowField φ N (unitRow D N p k) = unitField ⟨p, hp⟩ (φ k) := by
  funext j
  rw [rowField_apply, unitField]
  by_cases hj : (j : ℕ) = p
  · have : j = ⟨p, hp⟩ := Fin.ext hj
    rw [this, Pi.single_eq_same, Finset.sum_eq_single (⟨k, hk⟩ : Fin N)]
    · simp [unitRow]
    · intro b _ hb
      have hbk : (b : ℕ) ≠ k := fun h => hb (Fin.ext h)
      simp [unitRow, hbk]
    · simp
  · rw [Pi.single_eq_of_ne (fun h => hj (by rw [h]))]
    refine Finset.sum_eq_zero fun l _ => ?_
    simp [unitRow, hj]

end FIAT
