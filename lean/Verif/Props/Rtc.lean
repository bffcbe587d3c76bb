/-
C76: the elements RTCF and RTCE on the quadrilateral.
-/
import Verif.Props.RtcFlat

namespace FIAT
open MvPolynomial

theorem quad_coord {a : ℕ} (ha : a < 4) (i : Fin 2) : (ufcQuadrilateral : CellData ℝ).coord a i = ![(a / 2 : ℕ), (a % 2 : ℕ)] i := by
  interval_cases a <;> fin_cases i <;>
    simp [CellData.coord, ufcQuadrilateral, tensorProductCell, pyProduct, ufcInterval]

/-- The traces on the four edges. -/
theorem rtc_edge {ids : EntityIds Key} {D N n oAB oBA : ℕ} {v : ℕ → ℕ} {f g : ℕ → MvPolynomial (Fin 1) ℝ} {bAB bBA : Fin 2 → ℝ}
    {w : ℕ → Fin 2 → MvPolynomial (Fin 2) ℝ} {B : (Fin 2 → ℝ) → (Fin 2 → ℝ) → ℝ} (hs : SameEntities (ufcQuadrilateral : CellData ℝ).topo ids)
    (h0 : ∀ e < 4, ids.at? (.int 0) e = some [])
    (h1 : ∀ e < 2, ids.at? (.int 1) e = some ((List.range n).map fun b => oAB + (v e * n + b)))
    (h2 : ∀ e < 2, ids.at? (.int 1) (2 + e) = some ((List.range n).map fun b => oBA + (b * N + v e)))
    (hv : ∀ e < 2, v e < N) (hf : ∀ e : ℕ, e < 2 → ∀ j < N, eval (fun _ : Fin 1 => (e : ℝ)) (f j) = if v e = j then 1 else 0)
    (hw : ∀ u x, fieldAt D w u x = fun c => bAB c * ∑ r ∈ Finset.range (N * n), u (oAB + r) * eval x (prodBasis n f g r : MvPolynomial (Fin 2) ℝ) +
      bBA c * ∑ r ∈ Finset.range (n * N), u (oBA + r) * eval x (prodBasis N g f r : MvPolynomial (Fin 2) ℝ))
    (hB1 : ∀ x y : ℝ, B ![0, 1] (fun c => bAB c * x + bBA c * y) = x)
    (hB2 : ∀ x y : ℝ, B ![1, 0] (fun c => bAB c * x + bBA c * y) = y) : IsEdgeElement ufcQuadrilateral ids D n B w g := by
  constructor
  · intro e l hl
    obtain ⟨t, m, q1, q2⟩ := (hs (.int 0) e).1 (by rw [hl]; rfl)
    have hm : Dict.get? (ufcQuadrilateral : CellData ℝ).topo (.int 0) = some [(0, [0]), (1, [1]), (2, [2]), (3, [3])] := by
      have h1 : (ufcQuadrilateral : CellData ℝ).topo = (ufcQuadrilateral : CellData ℤ).topo := rfl
      rw [h1]
      decide +kernel
    rw [hm, Option.some.injEq] at q1
    subst q1
    have he : e < 4 := by
      have := Dict.mem_of_get? q2
      simp only [List.mem_cons, List.not_mem_nil, or_false, Prod.mk.injEq] at this
      omega
    rw [h0 e he, Option.some.injEq] at hl
    exact hl.symm
  · intro e a b l ht hl
    rcases quad_edges ht with ⟨he, hab⟩ | ⟨e', he, rfl, hab⟩
    · simp only [List.cons.injEq, and_true] at hab
      obtain ⟨rfl, rfl⟩ := hab
      have hl' := Option.some.inj (hl.symm.trans (h1 e he))
      refine ⟨by rw [hl']; simp, fun u s => ?_⟩
      have ht' : (fun i : Fin 2 => (ufcQuadrilateral : CellData ℝ).coord (2 * e + 1) i - (ufcQuadrilateral : CellData ℝ).coord (2 * e) i) = ![0, 1] := by
        funext i
        rw [quad_coord (by omega), quad_coord (by omega)]
        interval_cases e <;> fin_cases i <;> norm_num
      have hx : (fun i : Fin 2 => (ufcQuadrilateral : CellData ℝ).coord (2 * e) i +
          s * ((ufcQuadrilateral : CellData ℝ).coord (2 * e + 1) i - (ufcQuadrilateral : CellData ℝ).coord (2 * e) i)) = ![(e : ℝ), s] := by
        funext i
        rw [congrFun ht' i, quad_coord (by omega)]
        interval_cases e <;> fin_cases i <;> norm_num
      rw [ht', hx, hw, hB1, sum_map_range n _ u (fun j => eval (fun _ => s) (g j)) hl',
        trace_left (x := ![(e : ℝ), s]) (hv e he) (hf e he) (fun r => u (oAB + r))]
      rfl
    · simp only [List.cons.injEq, and_true] at hab
      obtain ⟨rfl, rfl⟩ := hab
      have hl' := Option.some.inj (hl.symm.trans (h2 _ he))
      refine ⟨by rw [hl']; simp, fun u s => ?_⟩
      have ht' : (fun i : Fin 2 => (ufcQuadrilateral : CellData ℝ).coord (2 + a) i - (ufcQuadrilateral : CellData ℝ).coord a i) = ![1, 0] := by
        funext i
        rw [quad_coord (by omega), quad_coord (by omega)]
        interval_cases a <;> fin_cases i <;> norm_num
      have hx : (fun i : Fin 2 => (ufcQuadrilateral : CellData ℝ).coord a i +
          s * ((ufcQuadrilateral : CellData ℝ).coord (2 + a) i - (ufcQuadrilateral : CellData ℝ).coord a i)) = ![s, (a : ℝ)] := by
        funext i
        rw [congrFun ht' i, quad_coord (by omega)]
        interval_cases a <;> fin_cases i <;> norm_num
      rw [ht', hx, hw, hB2, sum_map_range n _ u (fun j => eval (fun _ => s) (g j)) hl',
        trace_right (x := ![s, (a : ℝ)]) (hv a he) (hf a he) (fun r => u (oBA + r))]
      rfl

/-- The entity maps of the flattened product of two intervals. -/
theorem quad_emb : IsQuadEmb ufcQuadrilateral (flatEmb (tensorProductCell [ufcInterval, ufcInterval] : CellData ℝ).topo
    (prodEmb (m := 1) (n := 1) ufcInterval (simplexEmb ((ufcInterval : CellData ℝ).toSimplex 1))
      (simplexEmb ((ufcInterval : CellData ℝ).toSimplex 1)))) := by
  obtain ⟨el, ids0, ps, φ, pts, h1, h2, h3, h4, h5⟩ := line_element 1 le_rfl
  obtain ⟨P, W, h6, h7⟩ := uniform_flatten (cube_product h5 h5) (uniform_product h5.c0.good (line_uniform el pts) el) h3 flatCell_quad
    good_quadrilateral intKeys_quad
  have key : ∀ (d : Key) (e : ℕ) (t : List ℕ) (p : List ℝ), HasEntity (ufcQuadrilateral : CellData ℝ).topo d e t → p.length = d.tupleSum →
      ∀ i : Fin 2, flatEmb (tensorProductCell [ufcInterval, ufcInterval] : CellData ℝ).topo
        (prodEmb (m := 1) (n := 1) ufcInterval (simplexEmb ((ufcInterval : CellData ℝ).toSimplex 1))
          (simplexEmb ((ufcInterval : CellData ℝ).toSimplex 1))) d e p i =
        (List.zipWith (fun w a => w * (ufcQuadrilateral : CellData ℝ).coord a i) (cubeWeights d.tupleSum p) t).sum := by
    intro d e t p ht hp i
    rw [← (h7 d e t ht).2 p hp]
    exact (h6.weights d e t p ht hp).2.2 i
  refine ⟨fun e a h i => ?_, fun e a b h s i => ?_, fun x y => ?_⟩
  · rw [key _ _ _ _ h rfl i]
    simp [cubeWeights, Key.tupleSum]
  · rw [key _ _ _ [s] h rfl i]
    simp [cubeWeights, Key.tupleSum]
    ring
  · have ht : HasEntity (ufcQuadrilateral : CellData ℝ).topo (.int 2) 0 [0, 1, 2, 3] := by
      have h1 : (ufcQuadrilateral : CellData ℝ).topo = (ufcQuadrilateral : CellData ℤ).topo := rfl
      rw [h1]
      exact ⟨_, rfl, rfl⟩
    funext i
    rw [key _ _ _ [x, y] ht rfl i]
    have e0 := quad_coord (a := 0) (by norm_num) i
    have e1 := quad_coord (a := 1) (by norm_num) i
    have e2 := quad_coord (a := 2) (by norm_num) i
    have e3 := quad_coord (a := 3) (by norm_num) i
    simp only [cubeWeights, Key.tupleSum, List.flatMap_cons, List.flatMap_nil, List.map_cons, List.map_nil, List.append_nil,
      List.cons_append, List.nil_append, List.zipWith_cons_cons, List.zipWith_nil_left, List.sum_cons, List.sum_nil, e0, e1, e2, e3]
    fin_cases i <;> simp <;> ring

theorem prodDofs_left (n m a : ℕ) : prodDofs n [a] (List.range m) = (List.range m).map fun b => a * n + b := by simp [prodDofs]

theorem prodDofs_right (n m a : ℕ) : prodDofs n (List.range m) [a] = (List.range m).map fun b => b * n + a := by
  unfold prodDofs
  induction List.range m with
  | nil => rfl
  | cons x l ih => rw [List.flatMap_cons, ih]; rfl

/-- The dofs of the product of a Lagrange and a discontinuous element on the interval, in either order. -/
theorem line_pair_dofs {N n : ℕ} {idsA idsB : EntityIds Key} {v : ℕ → ℕ} {LA : List ℕ} (wA : Topology.WF idsA) (wB : Topology.WF idsB)
    (oA : InOrder idsA) (oB : InOrder idsB) (sA : SameEntities (ufcInterval : CellData ℝ).topo idsA)
    (sB : SameEntities (ufcInterval : CellData ℝ).topo idsB) (a0 : ∀ e < 2, idsA.at? (.int 0) e = some [v e]) (a1 : idsA.at? (.int 1) 0 = some LA)
    (b0 : ∀ e < 2, idsB.at? (.int 0) e = some []) (b1 : idsB.at? (.int 1) 0 = some (List.range n)) :
    ((∀ e < 4, (tensorEntityIds n idsA idsB).at? (Key.tup [.int 0, .int 0]) e = some []) ∧
      (∀ e < 2, (tensorEntityIds n idsA idsB).at? (Key.tup [.int 0, .int 1]) e = some ((List.range n).map fun b => v e * n + b)) ∧
      ∀ e < 2, (tensorEntityIds n idsA idsB).at? (Key.tup [.int 1, .int 0]) e = some []) ∧
    (∀ e < 4, (tensorEntityIds N idsB idsA).at? (Key.tup [.int 0, .int 0]) e = some []) ∧
      (∀ e < 2, (tensorEntityIds N idsB idsA).at? (Key.tup [.int 0, .int 1]) e = some []) ∧
      ∀ e < 2, (tensorEntityIds N idsB idsA).at? (Key.tup [.int 1, .int 0]) e = some ((List.range n).map fun b => b * N + v e) := by
  have n0 : numEntities (ufcInterval : CellData ℝ).topo (.int 0) = 2 := rfl
  have n1 : numEntities (ufcInterval : CellData ℝ).topo (.int 1) = 1 := rfl
  refine ⟨⟨fun e he => ?_, fun e he => ?_, fun e he => ?_⟩, fun e he => ?_, fun e he => ?_, fun e he => ?_⟩
  · have := line_pair_ids (n := n) wA wB oA oB sB (a0 (e / 2) (by omega)) (b0 (e % 2) (by omega))
    rw [n0, show e / 2 * 2 + e % 2 = e by omega] at this
    rw [this]; rfl
  · have := line_pair_ids (n := n) wA wB oA oB sB (a0 e he) b1
    rw [n1, show e * 1 + 0 = e by omega, prodDofs_left] at this
    exact this
  · have := line_pair_ids (n := n) wA wB oA oB sB a1 (b0 e he)
    rw [show 0 * numEntities (ufcInterval : CellData ℝ).topo (.int 0) + e = e by omega] at this
    rw [this]; simp [prodDofs]
  · have := line_pair_ids (n := N) wB wA oB oA sA (b0 (e / 2) (by omega)) (a0 (e % 2) (by omega))
    rw [n0, show e / 2 * 2 + e % 2 = e by omega] at this
    rw [this]; rfl
  · have := line_pair_ids (n := N) wB wA oB oA sA (b0 e he) a1
    rw [n1, show e * 1 + 0 = e by omega] at this
    rw [this]; rfl
  · have := line_pair_ids (n := N) wB wA oB oA sA b1 (a0 e he)
    rw [show 0 * numEntities (ufcInterval : CellData ℝ).topo (.int 0) + e = e by omega, prodDofs_right] at this
    exact this

end FIAT
