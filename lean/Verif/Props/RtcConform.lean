/-
C76: H(div) and H(curl) conformity of the quadrilateral elements, and examples.
-/
import Verif.Props.RtcMesh

namespace FIAT
open MvPolynomial

theorem nodal_line_independent {n : ℕ} {ψ : ℕ → MvPolynomial (Fin 1) ℝ} {qs : List (List ℝ)} (hl : qs.length = n)
    (h : ∀ (i : ℕ) q, qs[i]? = some q → ∀ j < n, eval (vecOf q) (ψ j) = if i = j then 1 else 0) (u : ℕ → ℝ)
    (hu : ∑ r ∈ Finset.range n, C (u r) * ψ r = 0) : ∀ r < n, u r = 0 := by
  intro r hr
  have hr' : r < qs.length := by omega
  have h1 := congrArg (eval (vecOf qs[r] : Fin 1 → ℝ)) hu
  rw [map_sum, map_zero, Finset.sum_eq_single r] at h1
  · rw [map_mul, eval_C, h r _ (List.getElem?_eq_getElem hr') r hr, if_pos rfl, mul_one] at h1
    exact h1
  · intro j hj hne
    rw [map_mul, h r _ (List.getElem?_eq_getElem hr') j (Finset.mem_range.1 hj), if_neg (Ne.symm hne), mul_zero]
  · intro hh; exact absurd (Finset.mem_range.2 hr) hh

/-- C76: the H(div) element on quadrilaterals, `k ≥ 1`: the fields it tabulates, mapped by the contravariant Piola map (the mapping the
element reports), have equal normal components along a shared edge exactly if the dofs of the edge are equal. -/
theorem rtcf_conforming {k l : ℕ} (hk : 1 ≤ k) {A B : TabElem ℝ ℝ} {idsA idsB : EntityIds Key} {ps qs : List (List ℝ)}
    (hA : IsLineLagrange k A idsA ps) (hB : IsLineDG l B idsB qs) :
    ∃ (E : TabElem ℝ ℝ) (ids : EntityIds Key) (w : ℕ → Fin 2 → MvPolynomial (Fin 2) ℝ) (emb : Key → ℕ → List ℝ → Fin 2 → ℝ),
      rtcf A B idsA idsB ps qs = some (E, ids, .contravariant) ∧ TabulatesFields E w emb ∧ IsQuadEmb ufcQuadrilateral emb ∧
      EdgeConforming ufcQuadrilateral ids E.dim w piolaDiv cross2 := by
  obtain ⟨E, ids, e1, e2, -, -, -, -, -, w, emb, ψ, e8, e9, -, e11, -, e13, e14⟩ := rtcf_element hk hA hB
  rw [e2] at e9 e11
  exact ⟨E, ids, w, emb, e1, e8, e9, edge_conforming e11 (fun F x t v hd => cross2_piola _ hd t v) (nodal_line_independent e13 e14)⟩

/-- C76: the H(curl) element on quadrilaterals, `k ≥ 1`: the fields it tabulates, mapped by the covariant Piola map (the mapping the
element reports), have equal tangential components along a shared edge exactly if the dofs of the edge are equal. -/
theorem rtce_conforming {k l : ℕ} (hk : 1 ≤ k) {A B : TabElem ℝ ℝ} {idsA idsB : EntityIds Key} {ps qs : List (List ℝ)}
    (hA : IsLineLagrange k A idsA ps) (hB : IsLineDG l B idsB qs) :
    ∃ (E : TabElem ℝ ℝ) (ids : EntityIds Key) (w : ℕ → Fin 2 → MvPolynomial (Fin 2) ℝ) (emb : Key → ℕ → List ℝ → Fin 2 → ℝ),
      rtce A B idsA idsB ps qs = some (E, ids, .covariant) ∧ TabulatesFields E w emb ∧ IsQuadEmb ufcQuadrilateral emb ∧
      EdgeConforming ufcQuadrilateral ids E.dim w piolaCurl dot2 := by
  obtain ⟨E, ids, e1, e2, -, -, -, -, -, w, emb, ψ, e8, e9, -, e11, -, e13, e14⟩ := rtce_element hk hA hB
  rw [e2] at e9 e11
  exact ⟨E, ids, w, emb, e1, e8, e9, edge_conforming e11 (fun F x t v hd => dot2_piola _ hd t v) (nodal_line_independent e13 e14)⟩

/-! ### Examples -/

theorem strip_det (x : Fin 2 → ℝ) : (jacAt ![X 0, X 1] x).det = 1 ∧ (jacAt ![X 0 + 1, X 1] x).det = 1 := by
  constructor <;> rw [Matrix.det_fin_two] <;> simp [jacAt, pderiv_X, Pi.single_apply]

theorem strip_edges : HasEntity (ufcQuadrilateral : CellData ℝ).topo (.int 1) 1 [2, 3] ∧
    HasEntity (ufcQuadrilateral : CellData ℝ).topo (.int 1) 0 [0, 1] := by
  have h : HasEntity (ufcQuadrilateral : CellData ℤ).topo (.int 1) 1 [2, 3] ∧
    HasEntity (ufcQuadrilateral : CellData ℤ).topo (.int 1) 0 [0, 1] := by
    unfold HasEntity
    decide +kernel
  exact h

/-- The hypotheses are met: degree 2 and 1, so that `dim = 12`, with two dofs per edge, on the two squares of `strip`. -/
example : ∃ (A B : TabElem ℝ ℝ) (idsA idsB : EntityIds Key) (ps qs : List (List ℝ)), IsLineLagrange 2 A idsA ps ∧ IsLineDG 1 B idsB qs ∧
    ∃ (E : TabElem ℝ ℝ) (ids : EntityIds Key) (w : ℕ → Fin 2 → MvPolynomial (Fin 2) ℝ) (l l' : List ℕ),
      rtcf A B idsA idsB ps qs = some (E, ids, .contravariant) ∧ ids.at? (.int 1) 1 = some l ∧ ids.at? (.int 1) 0 = some l' ∧
      ∀ u u' : ℕ → ℝ, l.map u = l'.map u' ↔ ∀ s, 0 ≤ s → s ≤ 1 →
        cross2 (fun i => strip 3 i - strip 2 i) (piolaDiv ![X 0, X 1] (segPoint ufcQuadrilateral 2 3 s) (fieldAt E.dim w u (segPoint ufcQuadrilateral 2 3 s))) =
        cross2 (fun i => strip 3 i - strip 2 i) (piolaDiv ![X 0 + 1, X 1] (segPoint ufcQuadrilateral 0 1 s) (fieldAt E.dim w u' (segPoint ufcQuadrilateral 0 1 s))) := by
  obtain ⟨A, idsA, ps, hA⟩ := lineLagrange_exists 2 (by norm_num)
  obtain ⟨B, idsB, qs, hB⟩ := lineDG_exists 1
  refine ⟨A, B, idsA, idsB, ps, qs, hA, hB, ?_⟩
  obtain ⟨E, ids, w, emb, e1, -, -, e4⟩ := rtcf_conforming (by norm_num) hA hB
  obtain ⟨E', ids', e1', e2, -, -, -, e6, -⟩ := rtcf_element (by norm_num) hA hB
  rw [e1] at e1'
  obtain ⟨rfl, rfl⟩ : E = E' ∧ ids = ids' := by simpa using e1'
  rw [e2] at e6
  obtain ⟨l, hl⟩ := Option.isSome_iff_exists.1 ((e6 (.int 1) 1).2 ⟨_, strip_edges.1⟩)
  obtain ⟨l', hl'⟩ := Option.isSome_iff_exists.1 ((e6 (.int 1) 0).2 ⟨_, strip_edges.2⟩)
  refine ⟨E, ids, w, l, l', e1, hl, hl', ?_⟩
  exact (e4 strip _ _ _ _ strip_left strip_right 1 0 2 3 0 1 l l' strip_edges.1 strip_edges.2 rfl rfl hl hl'
    (fun s _ _ => by rw [(strip_det _).1, (strip_det _).2]; norm_num)).2

example : ∃ (A B : TabElem ℝ ℝ) (idsA idsB : EntityIds Key) (ps qs : List (List ℝ)) (E : TabElem ℝ ℝ) (ids : EntityIds Key),
    IsLineLagrange 2 A idsA ps ∧ IsLineDG 1 B idsB qs ∧ rtce A B idsA idsB ps qs = some (E, ids, .covariant) ∧ E.dim = 12 := by
  obtain ⟨A, idsA, ps, hA⟩ := lineLagrange_exists 2 (by norm_num)
  obtain ⟨B, idsB, qs, hB⟩ := lineDG_exists 1
  obtain ⟨E, ids, e1, -, -, -, e5, -⟩ := rtce_element (by norm_num) hA hB
  exact ⟨A, B, idsA, idsB, ps, qs, E, ids, hA, hB, e1, e5⟩

end FIAT
