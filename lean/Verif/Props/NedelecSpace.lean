/-
C23: the polynomial space of the Nedelec element of the first kind.
-/
import Verif.Lemmas.NedSpan
import Verif.Model.Nedelec

namespace FIAT
open MvPolynomial MeasureTheory

section
variable {D : ℕ}

/-- The rows of `vec_Pk_from_Pkp1` span `P_k^D`. -/
theorem unitRows_span {v : Fin (D + 1) → Fin D → ℝ} {κ : ℝ} {φ : ℕ → MvPolynomial (Fin D) ℝ} (hφ : OrthoSeq v κ φ) (deg N : ℕ)
    (hle : (deg + D).choose D ≤ N) :
    Submodule.span ℝ (rowField φ N '' {x | x ∈ ((List.range D).flatMap fun p => (List.range ((deg + D).choose D)).map fun k =>
      unitRow D N p k)}) = vecP D deg := by
  rw [← hφ.vec_span]
  congr 1
  ext u
  constructor
  · rintro ⟨x, hx, rfl⟩
    simp only [Set.mem_ofPred_eq, List.mem_flatMap, List.mem_range, List.mem_map] at hx
    obtain ⟨p, hp, k, hk, rfl⟩ := hx
    rw [rowField_unitRow φ p k hp (by omega)]
    exact ⟨(⟨p, hp⟩, ⟨k, hk⟩), rfl⟩
  · rintro ⟨t, rfl⟩
    refine ⟨unitRow D _ t.1 t.2, ?_, ?_⟩
    · simp only [Set.mem_ofPred_eq, List.mem_flatMap, List.mem_range, List.mem_map]
      exact ⟨t.1, t.1.2, t.2, t.2.2, rfl⟩
    · rw [rowField_unitRow φ t.1 t.2 t.1.2 (by have := t.2.2; omega)]

/-- Rows whose fields are multiples of given fields. -/
theorem scaled_span {κ : ℝ} (hκ : κ ≠ 0) {M R : Type} [AddCommGroup M] [Module ℝ M] (f : R → M) (B : List R) {n : ℕ} (g : Fin n → M)
    (hB : B.map f = (List.finRange n).map fun i => κ • g i) :
    Submodule.span ℝ (f '' {x | x ∈ B}) = Submodule.span ℝ (Set.range g) := by
  apply le_antisymm
  · rw [Submodule.span_le]
    rintro _ ⟨x, hx, rfl⟩
    have h1 : f x ∈ B.map f := List.mem_map_of_mem hx
    rw [hB] at h1
    obtain ⟨i, -, hi⟩ := List.mem_map.1 h1
    rw [← hi]
    exact Submodule.smul_mem _ _ (Submodule.subset_span ⟨i, rfl⟩)
  · rw [Submodule.span_le]
    rintro _ ⟨i, rfl⟩
    have h1 : κ • g i ∈ B.map f := by
      rw [hB]
      exact List.mem_map.2 ⟨i, List.mem_finRange i, rfl⟩
    obtain ⟨x, hx, hx2⟩ := List.mem_map.1 h1
    have : g i = κ⁻¹ • f x := by rw [hx2, smul_smul, inv_mul_cancel₀ hκ, one_smul]
    rw [this]
    exact Submodule.smul_mem _ _ (Submodule.subset_span ⟨x, hx, rfl⟩)

/-- A row computed by quadrature: the projections of the components of `f`. -/
theorem projected_row {v : Fin (D + 1) → Fin D → ℝ} {κ : ℝ} {φ : ℕ → MvPolynomial (Fin D) ℝ} (h : OrthoSeq v κ φ)
    (n : ℕ) (Q : QRule ℝ (Fin D → ℝ)) (N : ℕ) (hQ : GoodRule Q v N) (hl : Q.wts.length = Q.pts.length) (hN : 2 * n ≤ N)
    (row : Fin D → Fin ((n + D).choose D) → ℝ) (f : Fin D → MvPolynomial (Fin D) ℝ) (hf : ∀ j, (f j).totalDegree ≤ n)
    (hrow : ∀ j l, row j l = Q.integrate fun x => eval x (φ l) * eval x (f j)) :
    rowField φ ((n + D).choose D) row = κ • f := by
  funext j
  rw [rowField_apply, Pi.smul_apply, ← h.project n (f j) (hf j)]
  refine Finset.sum_congr rfl fun l _ => ?_
  congr 1
  rw [hrow]
  have e : (fun x => eval x (φ l) * eval x (f j)) = fun x => eval x (φ l * f j) := by funext x; rw [map_mul]
  rw [e]
  refine hQ.1 _ ((totalDegree_mul _ _).trans ?_)
  have := h.degree l.2
  have := hf j
  omega

end

/-- The rows of the two sets. -/
theorem ned_rows2_form (s : SimplexCell (Fin 2 → ℝ)) (hs : ProperSimplex ℝ s)
    (ho : 0 < orientation fun i : Fin 3 => s.v i) {gj : ℕ → ℕ → List ℝ} (hgj : NodesOK gj) (k : ℕ)
    {κ : ℝ} (φ : ℕ → MvPolynomial (Fin 2) ℝ) (ht : ExpTabulates 2 (k + 1) (fun i : Fin 3 => s.v i) φ)
    (hφ : OrthoSeq (fun i : Fin 3 => s.v i) κ φ) :
    ∃ mats A B, onPolynomialSet s (k + 1) =
        some (onScalarSet ((k + 1 + 2).choose 2) 2 (expTab s.verts (k + 1)) mats) ∧
      BaseSpec (fun i : Fin ((k + 1 + 2).choose 2) => φ i) (expTab s.verts (k + 1)) ∧
      DmatSpec (fun i : Fin ((k + 1 + 2).choose 2) => φ i) mats ∧
      nedRows2 gj k s = some (A, B) ∧
      A = ((List.range 2).flatMap fun p => (List.range ((k + 2).choose 2)).map fun l => unitRow 2 ((k + 1 + 2).choose 2) p l) ∧
      B.map (rowField φ ((k + 1 + 2).choose 2)) = (List.finRange ((k + 2).choose 2 - dimLower 2 k)).map
        fun (i : Fin ((k + 2).choose 2 - dimLower 2 k)) => κ • crossLin2 (φ (dimLower 2 k + (i : ℕ))) := by
  have hD : (2 : ℕ) = 1 ∨ (2 : ℕ) = 2 ∨ (2 : ℕ) = 3 := by omega
  have h2 : HierarchicalBasis 2 (k + 1) φ := fun k _ => ⟨hφ.indep k, hφ.span k⟩
  obtain ⟨mats, m1, m2, m3⟩ := on_set_of_table hD s hs (fun h => by omega) (k + 1) φ ht h2
  have hverts := verts_ofFn s hs.2.1 hs.1
  obtain ⟨Q, q1, q2, q3, -⟩ := simplex_rule_spec hgj hD _ ho (2 * k + 2) (by omega)
  rw [← hverts] at q1
  obtain ⟨T, t1, t2⟩ := values_spec (by omega) (fun i : Fin ((k + 1 + 2).choose 2) => φ i)
    (onScalarSet ((k + 1 + 2).choose 2) 2 (expTab s.verts (k + 1)) mats) rfl m2 m3 Q.pts
  have hle : (k + 2).choose 2 ≤ (k + 1 + 2).choose 2 := Nat.choose_le_choose _ (by omega)
  have hlow := dimLower_le (D := 2) k
  refine ⟨mats, (List.range 2).flatMap fun p => (List.range ((k + 2).choose 2)).map fun l => unitRow 2 ((k + 1 + 2).choose 2) p l,
    (List.finRange ((k + 2).choose 2 - dimLower 2 k)).map
    fun (i : Fin ((k + 2).choose 2 - dimLower 2 k)) =>
      crossX2 Q T (T ⟨dimLower 2 k + (i : ℕ), by have := i.2; omega⟩ ()), m1, m2, m3, ?_, rfl, ?_⟩
  · unfold nedRows2
    simp only [m1, polyDim_succ hD, polyDim_nat hD, polyDim_pred hD, Option.bind_eq_bind, Option.bind_some, q1, t1]
    rw [takeRows_blocks _ _ 0 _ hle, Option.bind_some, takeRows_ofFn _ _ _ (by omega), Option.bind_some, List.map_map]
    simp only [Nat.sub_zero, Nat.zero_add]
    rfl
  · rw [List.map_map]
    refine List.map_congr_left fun i _ => ?_
    rw [Function.comp_apply]
    have hd : (φ (dimLower 2 k + (i : ℕ))).totalDegree ≤ k := hφ.degree (by have := i.2; omega)
    refine projected_row hφ (k + 1) Q _ q2 q3 (by omega) _ _ (fun j => ?_) (fun j l => ?_)
    · have h1 : (X 1 * φ (dimLower 2 k + (i : ℕ))).totalDegree ≤ k + 1 := Xmul_degree 1 hd (by omega)
      have h2 : (X 0 * φ (dimLower 2 k + (i : ℕ))).totalDegree ≤ k + 1 := Xmul_degree 0 hd (by omega)
      fin_cases j
      · exact h1
      · show (- (X 0 * φ (dimLower 2 k + (i : ℕ)))).totalDegree ≤ k + 1
        rw [totalDegree_neg]; exact h2
    · have key : ∀ c : Fin 2, ((Q.pts.zip Q.wts).zipIdx.map fun q => q.1.2 *
          T ⟨dimLower 2 k + (i : ℕ), by have := i.2; omega⟩ () q.2 * q.1.1 c * T l () q.2).sum =
          Q.integrate fun x => eval x (φ l) * eval x (X c * φ (dimLower 2 k + (i : ℕ))) := by
        intro c
        refine sum_zip_values Q.pts Q.wts q3 (fun x => eval x (φ l) * eval x (X c * φ (dimLower 2 k + (i : ℕ))))
          (fun x w q => w * T ⟨dimLower 2 k + (i : ℕ), by have := i.2; omega⟩ () q * x c * T l () q) ?_
        intro q x w hx
        rw [t2 _ _ q x hx, t2 _ _ q x hx, scalar_member, scalar_member, map_mul, eval_X]; ring
      fin_cases j
      · show 1 * _ = _
        rw [one_mul]
        exact key 1
      · show -1 * _ = Q.integrate fun x => eval x (φ l) * eval x (- (X 0 * φ (dimLower 2 k + (i : ℕ))))
        refine (congrArg (fun z => -1 * z) (key 0)).trans ?_
        unfold QRule.integrate
        rw [← List.sum_map_mul_left]
        congr 2
        funext xw
        beta_reduce
        rw [map_neg]; ring

theorem ned_rows2_spec (s : SimplexCell (Fin 2 → ℝ)) (hs : ProperSimplex ℝ s)
    (ho : 0 < orientation fun i : Fin 3 => s.v i) {gj : ℕ → ℕ → List ℝ} (hgj : NodesOK gj) (k : ℕ)
    {κ : ℝ} (φ : ℕ → MvPolynomial (Fin 2) ℝ) (ht : ExpTabulates 2 (k + 1) (fun i : Fin 3 => s.v i) φ)
    (hφ : OrthoSeq (fun i : Fin 3 => s.v i) κ φ) :
    ∃ mats A B, onPolynomialSet s (k + 1) =
        some (onScalarSet ((k + 1 + 2).choose 2) 2 (expTab s.verts (k + 1)) mats) ∧
      BaseSpec (fun i : Fin ((k + 1 + 2).choose 2) => φ i) (expTab s.verts (k + 1)) ∧
      DmatSpec (fun i : Fin ((k + 1 + 2).choose 2) => φ i) mats ∧
      nedRows2 gj k s = some (A, B) ∧
      Submodule.span ℝ (rowField φ ((k + 1 + 2).choose 2) '' {x | x ∈ A ++ B}) = nedSub 2 k := by
  obtain ⟨mats, A, B, h1, h2, h3, h4, h5, h6⟩ := ned_rows2_form s hs ho hgj k φ ht hφ
  refine ⟨mats, A, B, h1, h2, h3, h4, ?_⟩
  have hle : (k + 2).choose 2 ≤ (k + 1 + 2).choose 2 := Nat.choose_le_choose _ (by omega)
  apply ned2_span hφ k
  have e : ∀ A B : List (Fin 2 → Fin ((k + 1 + 2).choose 2) → ℝ), {x | x ∈ A ++ B} = {x | x ∈ A} ∪ {x | x ∈ B} := by
    intro A B; ext x; simp
  rw [e, Set.image_union, Submodule.span_union, h5]
  rw [unitRows_span hφ k _ hle, scaled_span hφ.pos.ne' (rowField φ ((k + 1 + 2).choose 2)) _
    (fun (i : Fin ((k + 2).choose 2 - dimLower 2 k)) => crossLin2 (φ (dimLower 2 k + (i : ℕ)))) h6]
  congr 2
  ext u
  constructor
  · rintro ⟨i, rfl⟩; exact ⟨i, i.2, rfl⟩
  · rintro ⟨i, hi, rfl⟩; exact ⟨⟨i, hi⟩, rfl⟩

theorem ned_rows3_form (s : SimplexCell (Fin 3 → ℝ)) (hs : ProperSimplex ℝ s)
    (ho : 0 < orientation fun i : Fin 4 => s.v i) {gj : ℕ → ℕ → List ℝ} (hgj : NodesOK gj) (k : ℕ)
    {κ : ℝ} (φ : ℕ → MvPolynomial (Fin 3) ℝ) (ht : ExpTabulates 3 (k + 1) (fun i : Fin 4 => s.v i) φ)
    (hφ : OrthoSeq (fun i : Fin 4 => s.v i) κ φ) :
    ∃ mats A B, onPolynomialSet s (k + 1) =
        some (onScalarSet ((k + 1 + 3).choose 3) 3 (expTab s.verts (k + 1)) mats) ∧
      BaseSpec (fun i : Fin ((k + 1 + 3).choose 3) => φ i) (expTab s.verts (k + 1)) ∧
      DmatSpec (fun i : Fin ((k + 1 + 3).choose 3) => φ i) mats ∧
      nedRows3 gj k s = some (A, B) ∧
      A = ((List.range 3).flatMap fun p => (List.range ((k + 3).choose 3)).map fun l => unitRow 3 ((k + 1 + 3).choose 3) p l) ∧
      B.map (rowField φ ((k + 1 + 3).choose 3)) = ((List.range 3).flatMap fun p => (List.range ((k + 3).choose 3 - dimLower 3 k)).map
        fun l => unitRow 3 ((k + 1 + 3).choose 3) p (dimLower 3 k + l)).map
        fun r => κ • crossLin3 (rowField φ ((k + 1 + 3).choose 3) r) := by
  have hD : (3 : ℕ) = 1 ∨ (3 : ℕ) = 2 ∨ (3 : ℕ) = 3 := by omega
  have h2 : HierarchicalBasis 3 (k + 1) φ := fun k _ => ⟨hφ.indep k, hφ.span k⟩
  obtain ⟨mats, m1, m2, m3⟩ := on_set_of_table hD s hs (fun h => by omega) (k + 1) φ ht h2
  have hverts := verts_ofFn s hs.2.1 hs.1
  obtain ⟨Q, q1, q2, q3, -⟩ := simplex_rule_spec hgj hD _ ho (2 * (k + 1)) (by omega)
  rw [← hverts] at q1
  obtain ⟨T, t1, t2⟩ := values_spec (by omega) (fun i : Fin ((k + 1 + 3).choose 3) => φ i)
    (onScalarSet ((k + 1 + 3).choose 3) 3 (expTab s.verts (k + 1)) mats) rfl m2 m3 Q.pts
  have hle : (k + 3).choose 3 ≤ (k + 1 + 3).choose 3 := Nat.choose_le_choose _ (by omega)
  have hlow := dimLower_le (D := 3) k
  set E : List (Fin 3 → Fin ((k + 1 + 3).choose 3) → ℝ) := (List.range 3).flatMap fun p =>
    (List.range ((k + 3).choose 3 - dimLower 3 k)).map fun l => unitRow 3 ((k + 1 + 3).choose 3) p (dimLower 3 k + l) with hE
  obtain ⟨T', t1', t2'⟩ := values_spec (by omega) (fun i : Fin ((k + 1 + 3).choose 3) => φ i)
    (PolySet.ofRows 3 (expTab s.verts (k + 1)) mats E) rfl m2 m3 Q.pts
  have hdim : (if 0 < k then polyDim 3 ((k : ℤ) - 1) else some 0) = some (dimLower 3 k) := by
    rw [polyDim_pred hD]
    split_ifs with h
    · rfl
    · have : k = 0 := by omega
      subst this; rfl
  refine ⟨mats, (List.range 3).flatMap fun p => (List.range ((k + 3).choose 3)).map fun l => unitRow 3 ((k + 1 + 3).choose 3) p l,
    (List.finRange E.length).map fun i => crossX3 Q T (T' i), m1, m2, m3, ?_, rfl, ?_⟩
  · unfold nedRows3
    simp only [m1, polyDim_succ hD, polyDim_nat hD, hdim, Option.bind_eq_bind, Option.bind_some, q1, t1]
    rw [takeRows_blocks _ _ 0 _ hle, Option.bind_some, takeRows_blocks _ _ _ _ hle, Option.bind_some]
    have : (PolySet.ofRows 3 (onScalarSet ((k + 1 + 3).choose 3) 3 (expTab s.verts (k + 1)) mats).base
        (onScalarSet ((k + 1 + 3).choose 3) 3 (expTab s.verts (k + 1)) mats).dmats E).values Q.pts = some T' := t1'
    rw [← hE]
    rw [this, Option.bind_some]
    simp only [Nat.sub_zero, Nat.zero_add]
  · have hEm : E.map (fun r => κ • crossLin3 (rowField φ ((k + 1 + 3).choose 3) r)) =
        (List.finRange E.length).map fun i : Fin E.length => κ • crossLin3 (rowField φ ((k + 1 + 3).choose 3) (E.get i)) := by
      conv_lhs => rw [← List.ofFn_get E, List.ofFn_eq_map, List.map_map]
      rfl
    rw [hEm]
    have hEf : ∀ i : Fin E.length, ∃ (p : Fin 3) (l : ℕ), l < (k + 3).choose 3 - dimLower 3 k ∧
        rowField φ ((k + 1 + 3).choose 3) (E.get i) = unitField p (φ (dimLower 3 k + l)) := by
      intro i
      have hsub : ∀ r ∈ E, r ∈ (List.range 3).flatMap fun p => (List.range ((k + 3).choose 3 - dimLower 3 k)).map
        fun l => unitRow 3 ((k + 1 + 3).choose 3) p (dimLower 3 k + l) := fun r hr => hr
      have := hsub _ (List.get_mem E i)
      simp only [List.mem_flatMap, List.mem_range, List.mem_map] at this
      obtain ⟨p, hp, l, hl, h⟩ := this
      refine ⟨⟨p, hp⟩, l, hl, ?_⟩
      rw [← rowField_unitRow φ p (dimLower 3 k + l) hp (N := (k + 1 + 3).choose 3) (by omega), h]
    rw [List.map_map]
    refine List.map_congr_left fun i _ => ?_
    rw [Function.comp_apply]
    have hd : ∀ c, (rowField φ ((k + 1 + 3).choose 3) (E.get i) c).totalDegree ≤ k := by
      intro c
      obtain ⟨p, l, hl, h⟩ := hEf i
      rw [h]
      unfold unitField
      by_cases hc : c = p
      · subst hc; rw [Pi.single_eq_same]; exact hφ.degree (by omega)
      · rw [Pi.single_eq_of_ne hc]; simp
    refine projected_row hφ (k + 1) Q _ q2 q3 (by omega) _ _ (fun j => ?_) (fun j l => ?_)
    · exact pdeg_sub (Xmul_degree _ (hd _) (by omega)) (Xmul_degree _ (hd _) (by omega))
    · unfold crossX3
      refine sum_zip_values Q.pts Q.wts q3 (fun x => eval x (φ l) * eval x (crossLin3 (rowField φ _ (E.get i)) j))
        (fun x w q => T l () q * ((x (j + 2) * T' i (j + 1) q - x (j + 1) * T' i (j + 2) q) * w)) ?_
      intro q x w hx
      have hm : ∀ c, (PolySet.ofRows 3 (expTab s.verts (k + 1)) mats E).member (fun i : Fin ((k + 1 + 3).choose 3) => φ i) i c =
          rowField φ _ (E.get i) c := fun c => by rw [ofRows_member]
      rw [t2 _ _ q x hx, t2' _ _ q x hx, t2' _ _ q x hx, scalar_member, hm, hm, crossLin3_apply, map_sub, map_mul, map_mul,
        eval_X, eval_X]
      ring


theorem ned_rows3_spec (s : SimplexCell (Fin 3 → ℝ)) (hs : ProperSimplex ℝ s)
    (ho : 0 < orientation fun i : Fin 4 => s.v i) {gj : ℕ → ℕ → List ℝ} (hgj : NodesOK gj) (k : ℕ)
    {κ : ℝ} (φ : ℕ → MvPolynomial (Fin 3) ℝ) (ht : ExpTabulates 3 (k + 1) (fun i : Fin 4 => s.v i) φ)
    (hφ : OrthoSeq (fun i : Fin 4 => s.v i) κ φ) :
    ∃ mats A B, onPolynomialSet s (k + 1) =
        some (onScalarSet ((k + 1 + 3).choose 3) 3 (expTab s.verts (k + 1)) mats) ∧
      BaseSpec (fun i : Fin ((k + 1 + 3).choose 3) => φ i) (expTab s.verts (k + 1)) ∧
      DmatSpec (fun i : Fin ((k + 1 + 3).choose 3) => φ i) mats ∧
      nedRows3 gj k s = some (A, B) ∧
      Submodule.span ℝ (rowField φ ((k + 1 + 3).choose 3) '' {x | x ∈ A ++ B}) = nedSub 3 k := by
  obtain ⟨mats, A, B, h1, h2, h3, h4, h5, h6⟩ := ned_rows3_form s hs ho hgj k φ ht hφ
  refine ⟨mats, A, B, h1, h2, h3, h4, ?_⟩
  have hle : (k + 3).choose 3 ≤ (k + 1 + 3).choose 3 := Nat.choose_le_choose _ (by omega)
  have hlow := dimLower_le (D := 3) k
  set E : List (Fin 3 → Fin ((k + 1 + 3).choose 3) → ℝ) := (List.range 3).flatMap fun p =>
    (List.range ((k + 3).choose 3 - dimLower 3 k)).map fun l => unitRow 3 ((k + 1 + 3).choose 3) p (dimLower 3 k + l) with hE
  have hEm : E.map (fun r => κ • crossLin3 (rowField φ ((k + 1 + 3).choose 3) r)) =
      (List.finRange E.length).map fun i : Fin E.length => κ • crossLin3 (rowField φ ((k + 1 + 3).choose 3) (E.get i)) := by
    conv_lhs => rw [← List.ofFn_get E, List.ofFn_eq_map, List.map_map]
    rfl
  rw [hEm] at h6
  apply ned3_span hφ k
  have e : ∀ A B : List (Fin 3 → Fin ((k + 1 + 3).choose 3) → ℝ), {x | x ∈ A ++ B} = {x | x ∈ A} ∪ {x | x ∈ B} := by
    intro A B; ext x; simp
  rw [e, Set.image_union, Submodule.span_union, h5]
  have hEf : ∀ i : Fin E.length, ∃ (p : Fin 3) (l : ℕ), l < (k + 3).choose 3 - dimLower 3 k ∧
      rowField φ ((k + 1 + 3).choose 3) (E.get i) = unitField p (φ (dimLower 3 k + l)) := by
    intro i
    have hsub : ∀ r ∈ E, r ∈ (List.range 3).flatMap fun p => (List.range ((k + 3).choose 3 - dimLower 3 k)).map
      fun l => unitRow 3 ((k + 1 + 3).choose 3) p (dimLower 3 k + l) := fun r hr => hr
    have := hsub _ (List.get_mem E i)
    simp only [List.mem_flatMap, List.mem_range, List.mem_map] at this
    obtain ⟨p, hp, l, hl, h⟩ := this
    refine ⟨⟨p, hp⟩, l, hl, ?_⟩
    rw [← rowField_unitRow φ p (dimLower 3 k + l) hp (N := (k + 1 + 3).choose 3) (by omega), h]
  rw [unitRows_span hφ k _ hle, scaled_span hφ.pos.ne' (rowField φ ((k + 1 + 3).choose 3)) _
    (fun i : Fin E.length => crossLin3 (rowField φ _ (E.get i))) h6]
  congr 2
  ext u
  constructor
  · rintro ⟨i, rfl⟩
    obtain ⟨p, l, hl, h⟩ := hEf i
    exact ⟨p, l, hl, congrArg crossLin3 h⟩
  · rintro ⟨p, l, hl, rfl⟩
    have hm : unitRow 3 ((k + 1 + 3).choose 3) p (dimLower 3 k + l) ∈ E := by
      rw [hE]
      simp only [List.mem_flatMap, List.mem_range, List.mem_map]
      exact ⟨p, p.2, l, hl, rfl⟩
    obtain ⟨i, hi⟩ := List.get_of_mem hm
    refine ⟨i, congrArg crossLin3 ?_⟩
    rw [hi, rowField_unitRow φ p (dimLower 3 k + l) p.2 (by omega)]

/-- The rows `NedelecSpace2D`, `NedelecSpace3D` hand to `polynomial_set_union_normalized`. -/
theorem ned_rows_spec {D : ℕ} (hD : D = 2 ∨ D = 3) (s : SimplexCell (Fin D → ℝ)) (hs : ProperSimplex ℝ s)
    (ho : 0 < orientation fun i : Fin (D + 1) => s.v i) {gj : ℕ → ℕ → List ℝ} (hgj : NodesOK gj) (k : ℕ)
    {κ : ℝ} (φ : ℕ → MvPolynomial (Fin D) ℝ) (ht : ExpTabulates D (k + 1) (fun i : Fin (D + 1) => s.v i) φ)
    (hφ : OrthoSeq (fun i : Fin (D + 1) => s.v i) κ φ) :
    ∃ mats A B, onPolynomialSet s (k + 1) =
        some (onScalarSet ((k + 1 + D).choose D) D (expTab s.verts (k + 1)) mats) ∧
      BaseSpec (fun i : Fin ((k + 1 + D).choose D) => φ i) (expTab s.verts (k + 1)) ∧
      DmatSpec (fun i : Fin ((k + 1 + D).choose D) => φ i) mats ∧
      nedRows gj k D s = some (A, B) ∧
      Submodule.span ℝ (rowField φ ((k + 1 + D).choose D) '' {x | x ∈ A ++ B}) = nedSub D k := by
  rcases hD with rfl | rfl
  · exact ned_rows2_spec s hs ho hgj k φ ht hφ
  · exact ned_rows3_spec s hs ho hgj k φ ht hφ

/-- The classical dimension of the Nedelec space of the first kind `NED_(k+1)`: `(k + 1)(k + 3)` on triangles,
`(k + 1)(k + 3)(k + 4) / 2` on tetrahedra. -/
def nedDim (D k : ℕ) : ℕ := if D = 2 then (k + 1) * (k + 3) else (k + 1) * (k + 3) * (k + 4) / 2

theorem finrank_nedSub_eq {D : ℕ} (hD : D = 2 ∨ D = 3) {v : Fin (D + 1) → Fin D → ℝ} {κ : ℝ} {φ : ℕ → MvPolynomial (Fin D) ℝ}
    (h : OrthoSeq v κ φ) (k : ℕ) : Module.finrank ℝ (nedSub D k) = nedDim D k := by
  have h1 := finrank_nedSub h k
  rcases hD with rfl | rfl
  · have e1 := choose_two' (k + 1)
    have e2 := choose_two' (k + 2)
    unfold nedDim
    rw [if_pos rfl]
    nlinarith
  · have e1 := choose_three' (k + 1)
    have e2 := choose_three' (k + 2)
    unfold nedDim
    rw [if_neg (by omega)]
    have : (k + 1) * (k + 3) * (k + 4) = Module.finrank ℝ (nedSub 3 k) * 2 := by nlinarith
    rw [this]
    omega

/-- C23: `NedelecSpace2D(cell, k)`, `NedelecSpace3D(cell, k)` on a positively oriented triangle or tetrahedron: the number of
members is the classical dimension; they are linearly independent and span exactly the fields `p + A x`, `p` in `P_k^D` and `A`
an antisymmetric matrix with entries in `P_k`. -/
theorem ned_space_spec {D : ℕ} (hD : D = 2 ∨ D = 3) (s : SimplexCell (Fin D → ℝ)) (hs : ProperSimplex ℝ s)
    (ho : 0 < orientation fun i : Fin (D + 1) => s.v i) {gj : ℕ → ℕ → List ℝ} (hgj : NodesOK gj) (k : ℕ)
    (svd : List (Fin D → Fin ((k + 1 + D).choose D) → ℝ) → List ℝ × List (Fin D → Fin ((k + 1 + D).choose D) → ℝ))
    (hsvd : ∀ A B, nedRows gj k D s = some (A, B) → SvdOK svd (A ++ B)) :
    ∃ m S, nedSpace gj k svd s = some ⟨m, S⟩ ∧ S.sd = D ∧ m = nedDim D k ∧
      ∃ φ : Fin ((k + 1 + D).choose D) → MvPolynomial (Fin D) ℝ,
        LinearIndependent ℝ φ ∧ Submodule.span ℝ (Set.range φ) = restrictTotalDegree (Fin D) ℝ (k + 1) ∧
        BaseSpec φ S.base ∧ DmatSpec φ S.dmats ∧ LinearIndependent ℝ (S.member φ) ∧
        ∀ w, w ∈ Submodule.span ℝ (Set.range (S.member φ)) ↔ IsNed k w := by
  have hD' : D = 1 ∨ D = 2 ∨ D = 3 := Or.inr hD
  have hind : AffineIndependent ℝ fun i : Fin (D + 1) => s.v i := by
    have hnd := hs.2.2.1
    unfold Nondegenerate at hnd
    rwa [hs.1] at hnd
  obtain ⟨φ, f1, f2⟩ := orthoSeq_exists hD' _ hind (by rw [← orientation_edge]; exact ho.ne')
  obtain ⟨mats, A, B, m1, m2, m3, m4, m5⟩ := ned_rows_spec hD s hs ho hgj k φ (f1 (k + 1) (Or.inr (by omega))) f2
  obtain ⟨o1, o2⟩ := hsvd A B m4
  obtain ⟨u1, u2⟩ := union_fields (f2.indep (k + 1)) svd A B o1 o2
  rw [m5] at u1
  have hmem : ((PolySet.ofRows D (expTab s.verts (k + 1)) mats (unionRows svd A B)).member
      fun i : Fin ((k + 1 + D).choose D) => φ i) =
      fun i => rowField φ _ ((unionRows svd A B).get i) := by
    funext i; rw [ofRows_member]
  refine ⟨(unionRows svd A B).length, PolySet.ofRows D (expTab s.verts (k + 1)) mats (unionRows svd A B), ?_, rfl, ?_,
    fun i => φ i, f2.indep (k + 1), f2.span (k + 1), m2, m3, ?_, fun w => ?_⟩
  · unfold nedSpace
    simp only [m4, m1, Option.bind_eq_bind, Option.bind_some]
    rfl
  · have h1 := finrank_span_eq_card u2
    rw [u1, finrank_nedSub_eq hD f2] at h1
    simpa using h1.symm
  · rw [hmem]; exact u2
  · rw [hmem, u1]; exact mem_nedSub

end FIAT
