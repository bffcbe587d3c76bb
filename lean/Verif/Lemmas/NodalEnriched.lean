/-
`NodalEnrichedElement`: the merged polynomial set and the merged nodes.
-/
import Verif.Model.NodalEnriched
import Verif.Lemmas.AnyElement
import Verif.Lemmas.LagrangeCore
import Verif.Props.Combine

namespace FIAT
open MvPolynomial
section
variable {D : ℕ} {Cp : Type} [Fintype Cp]

/-! ### One basis for all degrees -/

private theorem dmat_scale {N : ℕ} {φ : Fin N → MvPolynomial (Fin D) ℝ} {c : ℝ} (hc : c ≠ 0) {mats : List (Matrix (Fin N) (Fin N) ℝ)}
    (h : DmatSpec (fun i => c • φ i) mats) : DmatSpec φ mats := by
  refine ⟨h.1, fun i M hM k => ?_⟩
  have h1 := h.2 i M hM k
  have e : ∑ j, C (M j k) * (c • φ j) = c • ∑ j, C (M j k) * φ j := by
    rw [Finset.smul_sum]
    exact Finset.sum_congr rfl fun j _ => by rw [mul_smul_comm]
  rw [e] at h1
  have h2 : (pderiv i) (c • φ k) = c • (pderiv i) (φ k) := Derivation.map_smul _ _ _
  rw [h2] at h1
  exact smul_right_injective _ hc h1

theorem dmat_unscale {N : ℕ} {φ : Fin N → MvPolynomial (Fin D) ℝ} (c : ℝ) {mats : List (Matrix (Fin N) (Fin N) ℝ)}
    (h : DmatSpec φ mats) : DmatSpec (fun i => c • φ i) mats := by
  refine ⟨h.1, fun i M hM k => ?_⟩
  have e : ∑ j, C (M j k) * (c • φ j) = c • ∑ j, C (M j k) * φ j := by
    rw [Finset.smul_sum]
    exact Finset.sum_congr rfl fun j _ => by rw [mul_smul_comm]
  have h2 : (pderiv i) (c • φ k) = c • (pderiv i) (φ k) := Derivation.map_smul _ _ _
  rw [e, h2, h.2 i M hM k]

/-- The polynomial sets of all degrees on one cell use one sequence of polynomials, up to a factor in degree 0. -/
theorem common_basis (hD : D = 1 ∨ D = 2 ∨ D = 3) (s : SimplexCell (Fin D → ℝ)) (hs : ProperSimplex ℝ s)
    (hv : Increasing fun i : Fin (D + 1) => s.v i) :
    ∃ φ : ℕ → MvPolynomial (Fin D) ℝ, (∀ n, HierarchicalBasis D n φ) ∧ ∀ k, ∃ (c : ℝ) (mats : List (Matrix (Fin ((k + D).choose D)) (Fin ((k + D).choose D)) ℝ)),
      c ≠ 0 ∧ onPolynomialSet s k = some (onScalarSet ((k + D).choose D) D (expTab s.verts k) mats) ∧
      BaseSpec (fun i : Fin ((k + D).choose D) => c • φ i) (expTab s.verts k) ∧ DmatSpec (fun i : Fin ((k + D).choose D) => φ i) mats := by
  have hind : AffineIndependent ℝ fun i : Fin (D + 1) => s.v i := by
    have hnd := hs.2.2.1
    unfold Nondegenerate at hnd
    rwa [hs.1] at hnd
  obtain ⟨φ, h1, h2, -⟩ := expansion_table_spec D hD _ hind
  refine ⟨φ, h2, fun k => ?_⟩
  by_cases h : D = 1 ∨ k ≠ 0
  · obtain ⟨mats, m1, m2, m3⟩ := on_set_of_table hD s hs hv k φ (h1 k h) (h2 k)
    exact ⟨1, mats, one_ne_zero, m1, by simpa using m2, m3⟩
  · have h' : D ≠ 1 ∧ k = 0 := by tauto
    obtain ⟨h3, rfl⟩ := h'
    have hb1 : HierarchicalBasis D 0 fun _ => (1 : MvPolynomial (Fin D) ℝ) := by
      intro k hk
      obtain rfl : k = 0 := by omega
      have hi : LinearIndependent ℝ (fun _ : Fin ((0 + D).choose D) => (1 : MvPolynomial (Fin D) ℝ)) := by
        have : Subsingleton (Fin ((0 + D).choose D)) := by rw [zero_add, Nat.choose_self]; infer_instance
        rw [linearIndependent_subsingleton_index_iff]
        intro _; exact one_ne_zero
      exact ⟨hi, basis_of_independent 0 _ hi fun _ => by simp⟩
    obtain ⟨mats, m1, m2, m3⟩ := on_set_of_table hD s hs hv 0 (fun _ => 1) (expansion_table_zero D (hD.resolve_left h3) _ hind) hb1
    have hlt : 0 < (0 + D).choose D := by simp
    have hz : ∀ i : Fin ((0 + D).choose D), i = ⟨0, hlt⟩ := by
      intro i
      have := i.2
      simp only [zero_add, Nat.choose_self] at this
      exact Fin.ext (by simp only; omega)
    have hdeg : (φ 0).totalDegree = 0 := by
      have : φ 0 ∈ restrictTotalDegree (Fin D) ℝ 0 := by
        rw [← (h2 0 0 le_rfl).2]
        exact Submodule.subset_span ⟨⟨0, hlt⟩, rfl⟩
      rw [mem_restrictTotalDegree] at this
      omega
    have hne : φ 0 ≠ 0 := (h2 0 0 le_rfl).1.ne_zero ⟨0, hlt⟩
    rw [totalDegree_eq_zero_iff_eq_C] at hdeg
    have ha : coeff 0 (φ 0) ≠ 0 := by
      intro e
      rw [e, C_0] at hdeg
      exact hne hdeg
    have e1 : (fun i : Fin ((0 + D).choose D) => (coeff 0 (φ 0))⁻¹ • φ i) = fun _ => 1 := by
      funext i
      rw [hz i]
      simp only
      rw [hdeg, smul_eq_C_mul, ← C_mul, coeff_C, if_pos rfl, inv_mul_cancel₀ ha, C_1]
    refine ⟨(coeff 0 (φ 0))⁻¹, mats, inv_ne_zero ha, m1, ?_, dmat_scale (inv_ne_zero ha) ?_⟩
    · rw [e1]; exact m2
    · rw [e1]; exact m3

/-- Derivative matrices of a smaller degree are leading blocks of those of a larger degree. -/
theorem dmat_block {n n' : ℕ} (hn : n ≤ n') (φ : ℕ → MvPolynomial (Fin D) ℝ) (hli : LinearIndependent ℝ fun i : Fin n' => φ i)
    {A : Matrix (Fin n) (Fin n) ℝ} {B : Matrix (Fin n') (Fin n') ℝ} (i : Fin D)
    (hA : ∀ k : Fin n, ∑ j : Fin n, C (A j k) * φ j = pderiv i (φ k)) (hB : ∀ k : Fin n', ∑ j : Fin n', C (B j k) * φ j = pderiv i (φ k))
    (a b : ℕ) (ha : a < n) (hb : b < n) : natMat A a b = natMat B a b := by
  have h1 := hA ⟨b, hb⟩
  have h2 := hB ⟨b, by omega⟩
  have e : ∑ j : Fin n', (if h : (j : ℕ) < n then A ⟨j, h⟩ ⟨b, hb⟩ else 0) • φ j = ∑ j : Fin n, C (A j ⟨b, hb⟩) * φ j := by
    have e1 : ∀ f : ℕ → MvPolynomial (Fin D) ℝ, ∑ j : Fin n', f j = ∑ j ∈ Finset.range n', f j := fun f => Fin.sum_univ_eq_sum_range f n'
    have e2 : ∀ f : ℕ → MvPolynomial (Fin D) ℝ, ∑ j : Fin n, f j = ∑ j ∈ Finset.range n, f j := fun f => Fin.sum_univ_eq_sum_range f n
    have e3 := e1 fun j => (if h : j < n then A ⟨j, h⟩ ⟨b, hb⟩ else 0) • φ j
    have e4 := e2 fun j => (if h : j < n then A ⟨j, h⟩ ⟨b, hb⟩ else 0) • φ j
    rw [e3, ← Finset.sum_subset (Finset.range_subset_range.2 hn), ← e4]
    · refine Finset.sum_congr rfl fun j _ => ?_
      rw [dif_pos j.2, smul_eq_C_mul]
    · intro j _ hj
      rw [Finset.mem_range] at hj
      rw [dif_neg hj, zero_smul]
  have h3 : ∑ j : Fin n', ((if h : (j : ℕ) < n then A ⟨j, h⟩ ⟨b, hb⟩ else 0) - B j ⟨b, by omega⟩) • φ j = 0 := by
    simp only [sub_smul, Finset.sum_sub_distrib]
    rw [e, h1]
    simp only at h2
    rw [← h2]
    simp only [smul_eq_C_mul, sub_self]
  have h4 := Fintype.linearIndependent_iff.1 hli _ h3 ⟨a, by omega⟩
  simp only [dif_pos ha] at h4
  unfold natMat
  rw [dif_pos ⟨ha, hb⟩, dif_pos ⟨by omega, by omega⟩]
  linarith

/-! ### The largest part -/

theorem last_largest_spec : ∀ (ps : List (NodalPart D Cp)), ps ≠ [] → ∃ b, lastLargest ps = some b ∧ b ∈ ps ∧ ∀ p ∈ ps, p.expDim ≤ b.expDim
  | [], h => absurd rfl h
  | [p], _ => ⟨p, rfl, by simp, fun q hq => by rw [List.mem_singleton.1 hq]⟩
  | p :: q :: ps, _ => by
    obtain ⟨b, h1, h2, h3⟩ := last_largest_spec (q :: ps) (by simp)
    have e : lastLargest (p :: q :: ps) = if b.expDim < p.expDim then some p else some b := by
      show (match lastLargest (q :: ps) with | none => some p | some q => if q.expDim < p.expDim then some p else some q) = _
      rw [h1]
    by_cases h : b.expDim < p.expDim
    · refine ⟨p, by rw [e, if_pos h], by simp, fun x hx => ?_⟩
      rcases List.mem_cons.1 hx with rfl | hx
      · exact le_rfl
      · exact (h3 x hx).trans h.le
    · refine ⟨b, by rw [e, if_neg h], List.mem_cons_of_mem _ h2, fun x hx => ?_⟩
      rcases List.mem_cons.1 hx with rfl | hx
      · exact not_lt.1 h
      · exact h3 x hx

theorem expDim_le_iff (hD : 1 ≤ D) (p q : NodalPart D Cp) : p.expDim ≤ q.expDim ↔ p.degree ≤ q.degree := by
  unfold NodalPart.expDim
  constructor
  · intro h
    by_contra hlt
    have hlt : q.degree < p.degree := not_le.1 hlt
    have h1 : (q.degree + D).choose D < (q.degree + 1 + D).choose D := by
      have e : q.degree + 1 + D = (q.degree + D) + 1 := by omega
      obtain ⟨d, rfl⟩ : ∃ d, D = d + 1 := ⟨D - 1, by omega⟩
      rw [e, Nat.choose_succ_succ, Nat.succ_eq_add_one]
      have := Nat.choose_pos (show d ≤ q.degree + (d + 1) by omega)
      omega
    have h2 : (q.degree + 1 + D).choose D ≤ (p.degree + D).choose D := Nat.choose_le_choose _ (by omega)
    omega
  · intro h
    exact Nat.choose_le_choose _ (by omega)

/-! ### Rows and nodes of the merged element -/

private theorem take_ofFn {α : Type} {n : ℕ} (f : Fin n → α) (i : ℕ) (hi : i ≤ n) :
    (List.ofFn f).take i = List.ofFn fun j : Fin i => f (Fin.castLE hi j) := by
  apply List.ext_getElem
  · simp [hi]
  · intro k h1 h2
    simp

private theorem split_ofFn {α : Type} {n : ℕ} (f : Fin n → α) (i : Fin n) :
    List.ofFn f = (List.ofFn f).take i ++ f i :: (List.ofFn f).drop (i + 1) := by
  have h := List.take_append_drop i (List.ofFn f)
  rw [List.drop_eq_getElem_cons (by simp)] at h
  simpa using h.symm

/-- The number of row `j` of part `i`. -/
theorem offset_eq {n : ℕ} (P : Fin n → NodalPart D Cp) (x : (i : Fin n) × Fin (P i).dim) :
    (finSigmaFinEquiv x : ℕ) = (((List.ofFn P).take x.1).map NodalPart.dim).sum + x.2 := by
  rw [finSigmaFinEquiv_apply, take_ofFn P _ x.1.2.le, List.map_ofFn, List.sum_ofFn]
  rfl

theorem sum_dims {n : ℕ} (P : Fin n → NodalPart D Cp) : ((List.ofFn P).map NodalPart.dim).sum = ∑ i, (P i).dim := by
  rw [List.map_ofFn, List.sum_ofFn]; rfl

theorem merged_rows {n : ℕ} (P : Fin n → NodalPart D Cp) (x : (i : Fin n) × Fin (P i).dim) (c : Cp) (k : ℕ) :
    mergeCoeffs ((List.ofFn P).map fun (p : NodalPart D Cp) => (p.dim, p.expDim, p.rows)) (finSigmaFinEquiv x) c k =
      if h : k < (P x.1).expDim then (P x.1).el.coeffs x.2 c ⟨k, h⟩ else 0 := by
  have h := merge_coeffs_block (((List.ofFn P).take x.1).map fun (p : NodalPart D Cp) => (p.dim, p.expDim, p.rows))
    (((List.ofFn P).drop (x.1 + 1)).map fun (p : NodalPart D Cp) => (p.dim, p.expDim, p.rows)) ((P x.1).dim, (P x.1).expDim, (P x.1).rows)
    x.2 x.2.2 c k
  have e : (List.ofFn P).map (fun (p : NodalPart D Cp) => (p.dim, p.expDim, p.rows)) =
      (((List.ofFn P).take x.1).map fun (p : NodalPart D Cp) => (p.dim, p.expDim, p.rows)) ++ ((P x.1).dim, (P x.1).expDim, (P x.1).rows) ::
        (((List.ofFn P).drop (x.1 + 1)).map fun (p : NodalPart D Cp) => (p.dim, p.expDim, p.rows)) := by
    conv_lhs => rw [split_ofFn P x.1]
    rw [List.map_append, List.map_cons]
  rw [e, offset_eq]
  rw [List.map_map] at h
  refine Eq.trans h ?_
  by_cases hk : k < (P x.1).expDim
  · rw [if_pos hk, dif_pos hk]
    simp only [NodalPart.rows]
    rw [dif_pos ⟨x.2.2, hk⟩]
  · rw [if_neg hk, dif_neg hk]

theorem merged_nodes {n : ℕ} (P : Fin n → NodalPart D Cp) (hlen : ∀ i, (P i).nodes.length = (P i).dim) (x : (i : Fin n) × Fin (P i).dim) :
    ((List.ofFn P).flatMap NodalPart.nodes)[(finSigmaFinEquiv x : ℕ)]? = (P x.1).nodes[(x.2 : ℕ)]? := by
  have e : (List.ofFn P).flatMap NodalPart.nodes = ((List.ofFn P).take x.1).flatMap NodalPart.nodes ++ ((P x.1).nodes ++
      ((List.ofFn P).drop (x.1 + 1)).flatMap NodalPart.nodes) := by
    conv_lhs => rw [split_ofFn P x.1]
    rw [List.flatMap_append, List.flatMap_cons]
  have hl : (((List.ofFn P).take x.1).flatMap NodalPart.nodes).length = (((List.ofFn P).take x.1).map NodalPart.dim).sum := by
    rw [List.length_flatMap]
    congr 1
    refine List.map_congr_left fun p hp => ?_
    obtain ⟨i, rfl⟩ := (List.mem_ofFn' P p).1 (List.mem_of_mem_take hp)
    exact hlen i
  rw [e, offset_eq, List.getElem?_append_right (by rw [hl]; omega), hl, Nat.add_sub_cancel_left, List.getElem?_append_left]
  rw [hlen]
  exact x.2.2

theorem merged_length {n : ℕ} (P : Fin n → NodalPart D Cp) (hlen : ∀ i, (P i).nodes.length = (P i).dim) :
    ((List.ofFn P).flatMap NodalPart.nodes).length = ((List.ofFn P).map NodalPart.dim).sum := by
  rw [List.length_flatMap]
  congr 1
  refine List.map_congr_left fun p hp => ?_
  obtain ⟨i, rfl⟩ := (List.mem_ofFn' P p).1 hp
  exact hlen i

/-- The dictionaries of the merged numbering have no repeated keys. -/
theorem merge_entity_ids_wf (es : List (ℕ × EntityIds ℕ)) : Topology.WF (mergeEntityIds es) := by
  have hstep : ∀ (ret : EntityIds ℕ) (d e : ℕ) (xs : List ℕ), Topology.WF ret → Topology.WF (mergeStep ret d e xs) := by
    intro ret d e xs h
    unfold mergeStep
    refine topology_wf_put h d (Dict.WF.put ?_ _ _)
    cases hg : Dict.get? ret d with
    | none => simp [Dict.WF, Dict.keys]
    | some m => exact h.2 (d, m) (Dict.mem_of_get? hg)
  have h1 : ∀ (L : List (ℕ × List ℕ)) (d off : ℕ) (ret : EntityIds ℕ), Topology.WF ret →
      Topology.WF (L.foldl (fun ret q => mergeStep ret d q.1 (q.2.map (· + off))) ret) := by
    intro L d off
    induction L with
    | nil => exact fun ret h => h
    | cons q L ih => exact fun ret h => ih _ (hstep _ _ _ _ h)
  have h2 : ∀ (L : EntityIds ℕ) (off : ℕ) (ret : EntityIds ℕ), Topology.WF ret →
      Topology.WF (L.foldl (fun ret p =>
        let ret := match Dict.get? ret p.1 with
          | some (_ :: _) => ret
          | _ => Dict.put ret p.1 []
        p.2.foldl (fun ret q => mergeStep ret p.1 q.1 (q.2.map (· + off))) ret) ret) := by
    intro L off
    induction L with
    | nil => exact fun ret h => h
    | cons p L ih =>
      intro ret h
      rw [List.foldl_cons]
      refine ih _ (h1 _ _ _ _ ?_)
      split
      · exact h
      · exact topology_wf_put h _ (by simp [Dict.WF, Dict.keys])
  have h3 : ∀ (L : List (ℕ × EntityIds ℕ)) (st : ℕ × EntityIds ℕ), Topology.WF st.2 →
      Topology.WF (L.foldl (fun (st : ℕ × EntityIds ℕ) x =>
    (st.1 + x.1,
      x.2.foldl (fun ret p =>
        let ret := match Dict.get? ret p.1 with
          | some (_ :: _) => ret
          | _ => Dict.put ret p.1 []
        p.2.foldl (fun ret q => mergeStep ret p.1 q.1 (q.2.map (· + st.1))) ret) st.2)) st).2 := by
    intro L
    induction L with
    | nil => exact fun ret h => h
    | cons x L ih => exact fun st h => ih _ (h2 _ _ _ h)
  exact h3 es (0, []) ⟨by simp [Dict.WF, Dict.keys], by simp⟩

end
end FIAT
