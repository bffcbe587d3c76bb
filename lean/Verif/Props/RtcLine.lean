/-
C76: the two elements on the interval.
-/
import Verif.Props.RtcProduct
import Verif.Props.DeRham

namespace FIAT
open MvPolynomial

/-- `DiscontinuousLagrange(interval, l)` as a factor of products; its nodes are the evaluations at `nodes`. -/
def IsLineDG (l : ℕ) (L : TabElem ℝ ℝ) (ids : EntityIds Key) (nodes : List (List ℝ)) : Prop :=
  ∃ (el : PolySet ℝ (Fin 1 → ℝ) ((l + 1).choose 1) ((l + 1).choose 1) Unit) (ids0 : EntityIds ℕ) (ps : List (Fin 1 → ℝ)),
    discontinuousLagrange ((ufcInterval : CellData ℝ).toSimplex 1) l = some (el, ps.map pointEvaluation, ids0) ∧
    L = ciarletTab true ufcInterval el ∧ ids = intIds ids0 ∧ nodes = ps.map List.ofFn

theorem interval_intKeys : IntKeys (ufcInterval : CellData ℝ).topo := by
  intro p hp
  change _ ∈ [(Key.int 0, [(0, [0]), (1, [1])]), (Key.int 1, [(0, [0, 1])])] at hp
  simp only [List.mem_cons, List.not_mem_nil, or_false] at hp
  rcases hp with rfl | rfl <;> exact ⟨_, rfl⟩

theorem interval_hasDim : (ufcInterval : CellData ℝ).HasDim 1 := by
  intro v hv
  simp only [ufcInterval, List.mem_cons, List.not_mem_nil, or_false] at hv
  rcases hv with rfl | rfl <;> rfl

theorem interval_increasing : Increasing fun i : Fin (1 + 1) => ((ufcInterval : CellData ℝ).toSimplex 1).v i :=
  fun _ => by norm_num [SimplexCell.v, CellData.toSimplex, ufcInterval]

theorem pointEvaluation_inj {D : ℕ} {x y : Fin D → ℝ} (h : (pointEvaluation x : Functional ℝ (Fin D → ℝ)) = pointEvaluation y) : x = y := by
  unfold pointEvaluation at h
  injection h with h1 h2
  simpa using h1

theorem lineDG_exists (l : ℕ) : ∃ L ids nodes, IsLineDG l L ids nodes := by
  obtain ⟨el, nodes, ids, h1, -, -, h4, h5⟩ := discontinuous_lagrange_spec (by norm_num) _ (proper_ufcInterval (K := ℝ)) interval_increasing l
  rcases Nat.eq_zero_or_pos l with rfl | hl
  · rw [h4 rfl] at h1
    exact ⟨_, _, _, el, ids, [_], h1, rfl, rfl, rfl⟩
  · obtain ⟨pts, -, -, rfl⟩ := h5 hl
    exact ⟨_, _, _, el, ids, pts, h1, rfl, rfl, rfl⟩

theorem dg_ids {l : ℕ} {el : PolySet ℝ (Fin 1 → ℝ) ((l + 1).choose 1) ((l + 1).choose 1) Unit} {nodes : List (Functional ℝ (Fin 1 → ℝ))}
    {ids : EntityIds ℕ} (h : discontinuousLagrange ((ufcInterval : CellData ℝ).toSimplex 1) l = some (el, nodes, ids)) :
    ids = [(0, [(0, []), (1, [])]), (1, [(0, List.range nodes.length)])] := by
  match l with
  | 0 =>
    change p0Element _ = _ at h
    unfold p0Element at h
    simp only [Option.bind_eq_bind, Option.bind_eq_some_iff, Option.some.injEq, Prod.mk.injEq] at h
    obtain ⟨ids', h1, el', -, -, rfl, rfl⟩ := h
    have : some ids' = some [(0, [(0, []), (1, [])]), (1, [(0, [0])])] := h1.symm
    exact Option.some.inj this
  | l + 1 =>
    change higherOrderDG _ _ = _ at h
    unfold higherOrderDG at h
    simp only [Option.bind_eq_bind, Option.bind_eq_some_iff, Option.some.injEq, Prod.mk.injEq] at h
    obtain ⟨⟨pts, ids'⟩, h1, el', -, -, rfl, rfl⟩ := h
    unfold discLagrangeDual at h1
    simp only [Option.bind_eq_bind, Option.bind_eq_some_iff] at h1
    obtain ⟨r, -, ids'', h2, h3⟩ := h1
    have h3' : (r.2.1, ids'') = (pts, ids') := Option.some.inj h3
    rw [Prod.mk.injEq] at h3'
    obtain ⟨rfl, rfl⟩ := h3'
    have : some ids'' = some [(0, [(0, []), (1, [])]), (1, [(0, List.range r.2.1.length)])] := h2.symm
    simpa using Option.some.inj this

/-- The discontinuous element on the interval. -/
theorem lineDG_spec {l : ℕ} {L : TabElem ℝ ℝ} {ids : EntityIds Key} {nodes : List (List ℝ)} (h : IsLineDG l L ids nodes) :
    ∃ (el : PolySet ℝ (Fin 1 → ℝ) ((l + 1).choose 1) ((l + 1).choose 1) Unit) (φ : ℕ → MvPolynomial (Fin 1) ℝ),
      L = ciarletTab true ufcInterval el ∧
      IsNodalTab (ciarletTab true ufcInterval el) ids nodes φ (simplexEmb ((ufcInterval : CellData ℝ).toSimplex 1)) ∧
      SpansDeg (l + 1) φ (fun _ => l) ∧ ids.at? (.int 0) 0 = some [] ∧ ids.at? (.int 0) 1 = some [] ∧
      ids.at? (.int 1) 0 = some (List.range (l + 1)) := by
  obtain ⟨el, ids0, ps, h1, rfl, rfl, rfl⟩ := h
  have hs := proper_ufcInterval (K := ℝ)
  obtain ⟨el', nodes', ids', g1, ⟨ψ, p1, p2, p3, p4, p5⟩, g3, -, -⟩ :=
    discontinuous_lagrange_spec (by norm_num) _ (proper_ufcInterval (K := ℝ)) interval_increasing l
  rw [h1, Option.some.injEq, Prod.mk.injEq, Prod.mk.injEq] at g1
  obtain ⟨rfl, rfl, rfl⟩ := g1
  have hn : ps.length = l + 1 := by
    rw [List.length_map] at p3
    rw [p3]
    exact Nat.choose_one_right _
  have hid := dg_ids h1
  rw [List.length_map, hn] at hid
  subst hid
  clear g3
  have hc : (l + 1).choose 1 = l + 1 := Nat.choose_one_right _
  set φ : ℕ → MvPolynomial (Fin 1) ℝ := fun i => if h : i < (l + 1).choose 1 then ψ ⟨i, h⟩ else 0 with hφ
  have hvec : ∀ x : Fin 1 → ℝ, vecOf (List.ofFn x) = x := by
    intro x
    funext i
    rw [Subsingleton.elim i 0]
    simp [vecOf]
  have hints := interval_intKeys
  refine ⟨el, φ, rfl, ⟨good_interval, interval_hasDim, rfl, le_rfl, ?_, ?_, ?_, ?_, ⟨?_, ?_⟩, ?_, ?_⟩, ?_, rfl, rfl, rfl⟩
  · constructor
    · change List.Nodup [Key.int 0, Key.int 1]
      decide
    · intro p hp
      change p ∈ [(Key.int 0, [(0, []), (1, [])]), (Key.int 1, [(0, List.range (l + 1))])] at hp
      simp only [List.mem_cons, List.not_mem_nil, or_false] at hp
      rcases hp with rfl | rfl
      · change List.Nodup [0, 1]; decide
      · change List.Nodup [0]; decide
  · intro d es hm
    change (d, es) ∈ [(Key.int 0, [(0, []), (1, [])]), (Key.int 1, [(0, List.range (l + 1))])] at hm
    simp only [List.mem_cons, List.not_mem_nil, or_false, Prod.mk.injEq] at hm
    rcases hm with ⟨-, rfl⟩ | ⟨-, rfl⟩ <;> rfl
  · refine intIds_same (D := 1) hints ?_
    obtain ⟨-, -, -, i1, -⟩ := discontinuous_lagrange_spec (by norm_num) _ (proper_ufcInterval (K := ℝ)) interval_increasing l
    intro d e
    have : EntityIds.at? ([(0, [(0, []), (1, [])]), (1, [(0, List.range (l + 1))])] : EntityIds ℕ) d e =
        if d = 0 then (if e = 0 then some [] else if e = 1 then some [] else none) else
          if d = 1 then (if e = 0 then some (List.range (l + 1)) else none) else none := by
      unfold EntityIds.at?
      by_cases h0 : d = 0
      · subst h0
        by_cases e0 : e = 0
        · subst e0; rfl
        · by_cases e1 : e = 1
          · subst e1; rfl
          · simp [Dict.get?_cons, Ne.symm e0, Ne.symm e1, e0, e1]
      · by_cases h1 : d = 1
        · subst h1
          by_cases e0 : e = 0
          · subst e0; rfl
          · simp [Dict.get?_cons, Ne.symm e0, e0]
        · simp [Dict.get?_cons, Ne.symm h0, Ne.symm h1, h0, h1]
    rw [this]
    constructor
    · intro h
      split_ifs at h with a b c d' e'
      · subst a b; exact ⟨[0], _, rfl, rfl⟩
      · subst a c; exact ⟨[1], _, rfl, rfl⟩
      · simp at h
      · subst d' e'; exact ⟨[0, 1], _, rfl, rfl⟩
      · simp at h
      · simp at h
    · rintro ⟨v, hv⟩
      have := (toSimplex_entity hints 1 d e v).1 hv
      rcases interval_entity this with ⟨hd, he, -⟩ | ⟨hd, he, -⟩
      · obtain rfl : d = 0 := by simpa using hd
        rcases he with rfl | rfl <;> rfl
      · obtain rfl : d = 1 := by simpa using hd
        subst he; rfl
  · change DofsPartition (intIds [(0, [(0, []), (1, [])]), (1, [(0, List.range (l + 1))])]) ((l + 1).choose 1)
    rw [hc]
    refine intIds_partition ⟨fun d e lst hl => ?_, fun i hi => ?_⟩
    · obtain ⟨m, h3, h4⟩ := Option.bind_eq_some_iff.1 hl
      have h3' := Dict.mem_of_get? h3
      simp only [List.mem_cons, List.not_mem_nil, or_false, Prod.mk.injEq] at h3'
      rcases h3' with ⟨-, rfl⟩ | ⟨-, rfl⟩
      · have h4' := Dict.mem_of_get? h4
        simp only [List.mem_cons, List.not_mem_nil, or_false, Prod.mk.injEq] at h4'
        rcases h4' with ⟨-, rfl⟩ | ⟨-, rfl⟩ <;> exact ⟨List.nodup_nil, fun x hx => absurd hx List.not_mem_nil⟩
      · have h4' := Dict.mem_of_get? h4
        simp only [List.mem_cons, List.not_mem_nil, or_false, Prod.mk.injEq] at h4'
        obtain ⟨-, rfl⟩ := h4'
        exact ⟨List.nodup_range, fun x hx => List.mem_range.1 hx⟩
    · refine ⟨(1, 0), ⟨_, rfl, List.mem_range.2 hi⟩, ?_⟩
      rintro ⟨d, e⟩ ⟨lst, hl, hil⟩
      obtain ⟨m, h3, h4⟩ := Option.bind_eq_some_iff.1 hl
      have h3' := Dict.mem_of_get? h3
      simp only [List.mem_cons, List.not_mem_nil, or_false, Prod.mk.injEq] at h3'
      rcases h3' with ⟨-, rfl⟩ | ⟨rfl, rfl⟩
      · have h4' := Dict.mem_of_get? h4
        simp only [List.mem_cons, List.not_mem_nil, or_false, Prod.mk.injEq] at h4'
        rcases h4' with ⟨-, rfl⟩ | ⟨-, rfl⟩ <;> exact absurd hil List.not_mem_nil
      · have h4' := Dict.mem_of_get? h4
        simp only [List.mem_cons, List.not_mem_nil, or_false, Prod.mk.injEq] at h4'
        obtain ⟨rfl, -⟩ := h4'
        rfl
  · rw [List.length_map, hn]; exact hc.symm
  · intro p hp
    obtain ⟨x, -, rfl⟩ := List.mem_map.1 hp
    exact List.length_ofFn ..
  · intro i p hp j hj
    rw [List.getElem?_map, Option.map_eq_some_iff] at hp
    obtain ⟨x, hx, rfl⟩ := hp
    change eval (vecOf (List.ofFn x) : Fin 1 → ℝ) (φ j) = _
    change j < (l + 1).choose 1 at hj
    rw [hvec, hφ]
    beta_reduce
    rw [dif_pos hj]
    have := p4 i (pointEvaluation x) (by rw [List.getElem?_map, hx]; rfl) ⟨j, hj⟩
    rw [point_eval_scalar] at this
    exact this
  · intro key e t ht order pts hpts
    have hkey : ∃ d, key = .int d ∧ ∃ F : (Fin d → ℝ) → Fin 1 → ℝ, simplexTransform true ((ufcInterval : CellData ℝ).toSimplex 1) d e = some F := by
      rcases interval_entity ht with ⟨rfl, he, rfl⟩ | ⟨rfl, rfl, rfl⟩
      · have ht' := (toSimplex_entity hints 1 0 e [e]).2 ht
        refine ⟨0, rfl, fun _ => ((ufcInterval : CellData ℝ).toSimplex 1).v e, ?_⟩
        unfold simplexTransform
        rw [if_pos rfl, vertexOf_spec hs ht']
        rfl
      · exact ⟨1, rfl, id, by rw [entity_transform_cell true _ (by norm_num), if_pos rfl]⟩
    obtain ⟨d, rfl, F, f1⟩ := hkey
    obtain ⟨res, r1, r2, r3⟩ := p5 ((pts.map fun p => (vecOf p : Fin d → ℝ)).map F) order
    have hres : (ciarletTab true ufcInterval el).tabulate order pts (.int d, e) = some (res.map fun q =>
        (q.1, fun (x _ j : ℕ) => if h : x < (l + 1).choose 1 then q.2 ⟨x, h⟩ () j else 0)) := by
      change (tabulateOn true ((ufcInterval : CellData ℝ).toSimplex 1) el order d e (pts.map fun p => (vecOf p : Fin d → ℝ))).map _ = _
      unfold tabulateOn
      rw [f1, Option.bind_some, r1, Option.map_some]
    have hget : ∀ a, Dict.get? (res.map fun q => (q.1, fun (x _ j : ℕ) => if h : x < (l + 1).choose 1 then q.2 ⟨x, h⟩ () j else 0)) a =
        (Dict.get? res a).map fun q => fun (x _ j : ℕ) => if h : x < (l + 1).choose 1 then q ⟨x, h⟩ () j else 0 := fun a =>
      Dict.get?_map res (fun _ q => fun (x _ j : ℕ) => if h : x < (l + 1).choose 1 then q ⟨x, h⟩ () j else 0) a
    refine ⟨_, hres, fun a => ?_, fun a arr ha x hx j p hp => ?_⟩
    · rw [hget, Option.isSome_map, Dict.get?_isSome_iff]
      exact r2 a
    · rw [hget, Option.map_eq_some_iff] at ha
      obtain ⟨T, hT, rfl⟩ := ha
      change x < (l + 1).choose 1 at hx
      beta_reduce
      rw [dif_pos hx]
      have := r3 a T hT ⟨x, hx⟩ () j (F (vecOf p)) (by rw [List.getElem?_map, List.getElem?_map, hp]; rfl)
      rw [this]
      change _ = eval ((simplexTransform true ((ufcInterval : CellData ℝ).toSimplex 1) d e).elim 0 fun F => F (vecOf p)) _
      rw [f1, hφ]
      beta_reduce
      rw [dif_pos hx]
      rfl
  · suffices hh : ∀ n, n = (l + 1).choose 1 → SpansDeg n φ (fun _ => l) from hh _ hc.symm
    rintro n rfl p
    constructor
    · intro h
      have h' := p2 p (by rw [← degreeOf_one]; exact h 0)
      obtain ⟨u, hu⟩ := (Submodule.mem_span_range_iff_exists_fun ℝ).1 h'
      refine ⟨fun i => if h : i < (l + 1).choose 1 then u ⟨i, h⟩ else 0, ?_⟩
      rw [← hu, Finset.sum_range]
      refine Finset.sum_congr rfl fun i _ => ?_
      rw [hφ]
      beta_reduce
      rw [dif_pos i.2, dif_pos i.2, smul_eq_C_mul]
    · rintro ⟨u, rfl⟩
      refine sum_degreeOf (a := fun _ => l) (fun j _ i => ?_) u
      have hi : i = (0 : Fin 1) := Subsingleton.elim _ _
      subst hi
      change degreeOf 0 (φ j) ≤ l
      rw [degreeOf_one, hφ]
      beta_reduce
      split_ifs
      exact p1 _

end FIAT
