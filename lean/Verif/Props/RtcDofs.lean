/-
C76: the dofs on the entities of the quadrilateral.
-/
import Verif.Props.RtcTab

namespace FIAT
open MvPolynomial

/-- The element `Lagrange(interval, k)`: vertex `e` has one dof, `v e`, and the basis functions have the values 1 (number `v e`) and 0
(the others) there. -/
theorem lineC_spec {k : ℕ} (hk : 1 ≤ k) {L : TabElem ℝ ℝ} {ids : EntityIds Key} {nodes : List (List ℝ)} (h : IsLineLagrange k L ids nodes) :
    ∃ (el : PolySet ℝ (Fin 1 → ℝ) ((k + 1).choose 1) ((k + 1).choose 1) Unit) (φ : ℕ → MvPolynomial (Fin 1) ℝ) (v : ℕ → ℕ) (LA : List ℕ),
      L = ciarletTab true ufcInterval el ∧
      IsNodalTab (ciarletTab true ufcInterval el) ids nodes φ (simplexEmb ((ufcInterval : CellData ℝ).toSimplex 1)) ∧
      SpansDeg (k + 1) φ (fun _ => k) ∧ (∀ e < 2, ids.at? (.int 0) e = some [v e]) ∧ ids.at? (.int 1) 0 = some LA ∧
      (∀ e < 2, v e < k + 1) ∧ ∀ e : ℕ, e < 2 → ∀ j < k + 1, eval (fun _ : Fin 1 => (e : ℝ)) (φ j) = if v e = j then 1 else 0 := by
  obtain ⟨el, ids0, ps, φ, pts, h1, h2, h3, h4, h5⟩ := line_element k hk
  obtain ⟨rfl, rfl, rfl⟩ := lineLagrange_unique h ⟨el, ids0, ps, h1, h2, rfl, rfl, rfl⟩
  have hc : (k + 1).choose 1 = k + 1 := Nat.choose_one_right _
  have hent : ∀ e < 2, HasEntity (ufcInterval : CellData ℝ).topo (.int 0) e [e] := by
    intro e he
    interval_cases e <;> exact ⟨_, rfl, rfl⟩
  have key : ∀ e, ∃ v : ℕ, e < 2 → (intIds ids0).at? (.int 0) e = some [v] ∧ v < k + 1 ∧
      ∀ j < k + 1, eval (fun _ : Fin 1 => (e : ℝ)) (φ j) = if v = j then 1 else 0 := by
    intro e
    by_cases he : e < 2
    · obtain ⟨l, hl⟩ := Option.isSome_iff_exists.1 ((h5.c0.same (.int 0) e).2 ⟨_, hent e he⟩)
      have q := h5.placed.2 _ _ _ l (hent e he) hl
      simp only [linePlaces, List.map_cons, List.map_nil] at q
      obtain ⟨i, rfl⟩ : ∃ i, l = [i] := List.length_eq_one_iff.1 (by simpa using congrArg List.length q)
      simp only [List.map_cons, List.map_nil, List.cons.injEq, and_true] at q
      obtain ⟨p, p1, p2⟩ := Option.map_eq_some_iff.1 q
      obtain ⟨-, -, b3⟩ := h5.weights _ _ _ [] (hent e he) rfl
      have p3 : (vecOf p : Fin 1 → ℝ) = fun _ => (e : ℝ) := by
        refine p2.trans ?_
        funext (c : Fin 1)
        rw [b3 c]
        have hc0 : c = (0 : Fin 1) := Subsingleton.elim _ _
        subst hc0
        interval_cases e <;> simp [lineWeights, CellData.coord, ufcInterval, ciarletTab]
      refine ⟨i, fun _ => ⟨hl, ?_, fun j hj => ?_⟩⟩
      · have := (h5.c0.part.1 _ _ _ hl).2 i List.mem_cons_self
        rwa [← hc]
      · have := h5.c0.nodal i p p1 j (by rw [← hc] at hj; exact hj)
        rw [← this]
        exact congrArg (fun x => eval x (φ j)) p3.symm
    · exact ⟨0, fun h => absurd h he⟩
  choose v hv using key
  obtain ⟨LA, hLA⟩ := Option.isSome_iff_exists.1 ((h5.c0.same (.int 1) 0).2 ⟨[0, 1], _, rfl, rfl⟩)
  refine ⟨el, φ, v, LA, rfl, h5.c0.nodalTab, ?_, fun e he => (hv e he).1, hLA, fun e he => (hv e he).2.1, fun e he => (hv e he).2.2⟩
  have hsp : SpansDeg ((k + 1).choose 1) φ (fun _ : Fin 1 => k) := h5.span
  exact hc ▸ hsp

/-- The dofs of a product of elements on the interval. -/
theorem line_pair_ids {n : ℕ} {idsA idsB : EntityIds Key} (wA : Topology.WF idsA) (wB : Topology.WF idsB) (oA : InOrder idsA)
    (oB : InOrder idsB) (sB : SameEntities (ufcInterval : CellData ℝ).topo idsB) {da db ea eb : ℕ} {la lb : List ℕ}
    (hA : idsA.at? (.int da) ea = some la) (hB : idsB.at? (.int db) eb = some lb) :
    (tensorEntityIds n idsA idsB).at? (Key.tup [.int da, .int db]) (ea * numEntities (ufcInterval : CellData ℝ).topo (.int db) + eb) =
      some (prodDofs n la lb) :=
  (tensor_dofs_at _ _ _ wA wB oA oB _ _ _).2 ⟨_, _, ea, eb, la, lb, rfl, hA, hB,
    by rw [numListed_eq good_interval.wf wB sB hB], rfl⟩

theorem split_bound {a b c d : List ℕ} {n : ℕ} (h : a ++ b = c ++ d) (hb : ∀ i ∈ b, n ≤ i) (hc : ∀ i ∈ c, i < n) (ha : ∀ i ∈ a, i < n)
    (hd : ∀ i ∈ d, n ≤ i) : a = c ∧ b = d := by
  have h1 := congrArg (List.filter fun i => decide (i < n)) h
  have h2 := congrArg (List.filter fun i => decide (n ≤ i)) h
  have e1 : ∀ l : List ℕ, (∀ i ∈ l, i < n) → l.filter (fun i => decide (i < n)) = l ∧ l.filter (fun i => decide (n ≤ i)) = [] := by
    intro l hl
    exact ⟨List.filter_eq_self.2 fun i hi => by simpa using hl i hi, List.filter_eq_nil_iff.2 fun i hi => by simpa using hl i hi⟩
  have e2 : ∀ l : List ℕ, (∀ i ∈ l, n ≤ i) → l.filter (fun i => decide (i < n)) = [] ∧ l.filter (fun i => decide (n ≤ i)) = l := by
    intro l hl
    exact ⟨List.filter_eq_nil_iff.2 fun i hi => by simpa using hl i hi, List.filter_eq_self.2 fun i hi => by simpa using hl i hi⟩
  simp only [List.filter_append] at h1 h2
  rw [(e1 a ha).1, (e2 b hb).1, (e1 c hc).1, (e2 d hd).1, List.append_nil, List.append_nil] at h1
  rw [(e1 a ha).2, (e2 b hb).2, (e1 c hc).2, (e2 d hd).2, List.nil_append, List.nil_append] at h2
  exact ⟨h1, h2⟩

/-- Two concatenated elements: the dofs of an entity are those of the first element, then those of the second. -/
theorem concat_two {topo : Topology Key} {n m : ℕ} {idsX idsY ids : EntityIds Key} (h : Concatenates topo [(n, idsX), (m, idsY)] ids)
    (pX : DofsPartition idsX n) {d : Key} {e : ℕ} {lX lY : List ℕ} (hX : idsX.at? d e = some lX)
    (hY : idsY.at? d e = some lY) : ids.at? d e = some (lX ++ lY.map (n + ·)) := by
  obtain ⟨a, b, q1, q2, q3⟩ := h.block [] (n, idsX) [(m, idsY)] rfl d e lX hX
  obtain ⟨a', b', r1, r2, r3⟩ := h.block [(n, idsX)] (m, idsY) [] rfl d e lY hY
  simp only [List.map_nil, List.sum_nil, List.map_cons, List.sum_cons, Nat.add_zero, Nat.zero_add, List.map_id'] at q1 q2 q3 r1 r2 r3
  have ha : a = [] := by
    cases a with
    | nil => rfl
    | cons x a => exact absurd (q2 x List.mem_cons_self) (by omega)
  subst ha
  have hb : b' = [] := by
    cases b' with
    | nil => rfl
    | cons x b' =>
      have h1 := r3 x List.mem_cons_self
      have h2 := (h.part.1 _ _ _ r1).2 x (by simp)
      simp only [List.map_cons, List.map_nil, List.sum_cons, List.sum_nil] at h2
      omega
  subst hb
  rw [q1, Option.some.injEq, List.nil_append, List.append_nil] at r1
  have := split_bound (n := n) r1 q3 (fun i hi => r2 i hi) (fun i hi => (pX.1 _ _ _ hX).2 i hi) (fun i hi => by
    obtain ⟨j, -, rfl⟩ := List.mem_map.1 hi
    omega)
  rw [q1, List.nil_append, this.2]

/-- The product entities behind the entities of the quadrilateral. -/
theorem quad_map : ∀ e, (e < 4 → Dict.get? (computeUnflatteningMap (tensorProductCell [ufcInterval, ufcInterval] : CellData ℝ).topo) (0, e) =
      some (Key.tup [.int 0, .int 0], e)) ∧
    (e < 2 → Dict.get? (computeUnflatteningMap (tensorProductCell [ufcInterval, ufcInterval] : CellData ℝ).topo) (1, e) =
      some (Key.tup [.int 0, .int 1], e)) ∧
    (e < 2 → Dict.get? (computeUnflatteningMap (tensorProductCell [ufcInterval, ufcInterval] : CellData ℝ).topo) (1, 2 + e) =
      some (Key.tup [.int 1, .int 0], e)) := by
  have h1 : (tensorProductCell [ufcInterval, ufcInterval] : CellData ℝ).topo = (tensorProductCell [ufcInterval, ufcInterval] : CellData ℤ).topo := rfl
  rw [h1]
  intro e
  refine ⟨fun h => ?_, fun h => ?_, fun h => ?_⟩ <;> interval_cases e <;> decide +kernel

theorem quad_edges {e : ℕ} {t : List ℕ} (h : HasEntity (ufcQuadrilateral : CellData ℝ).topo (.int 1) e t) :
    (e < 2 ∧ t = [2 * e, 2 * e + 1]) ∨ ∃ e' < 2, e = 2 + e' ∧ t = [e', 2 + e'] := by
  obtain ⟨m, h1, h2⟩ := h
  have hm : Dict.get? (ufcQuadrilateral : CellData ℝ).topo (.int 1) = some [(0, [0, 1]), (1, [2, 3]), (2, [0, 2]), (3, [1, 3])] := by
    have h1 : (ufcQuadrilateral : CellData ℝ).topo = (ufcQuadrilateral : CellData ℤ).topo := rfl
    rw [h1]
    decide +kernel
  rw [hm, Option.some.injEq] at h1
  subst h1
  have := Dict.mem_of_get? h2
  simp only [List.mem_cons, List.not_mem_nil, or_false, Prod.mk.injEq] at this
  rcases this with ⟨rfl, rfl⟩ | ⟨rfl, rfl⟩ | ⟨rfl, rfl⟩ | ⟨rfl, rfl⟩
  · exact Or.inl ⟨by norm_num, rfl⟩
  · exact Or.inl ⟨by norm_num, rfl⟩
  · exact Or.inr ⟨0, by norm_num, rfl, rfl⟩
  · exact Or.inr ⟨1, by norm_num, rfl, rfl⟩

end FIAT
