/-
C80: the constructors of `EnrichedElement` and `MixedElement`.
-/
import Verif.Model.EnrichInit
import Verif.Props.CellEq
import Verif.Props.Combine

namespace FIAT
section
variable {α ν : Type}

/-- Specification: the elements may be enriched.  `e0` is the first element. -/
structure Enrichable (es : List (ElemInfo α ν)) (e0 : ElemInfo α ν) : Prop where
  first : es.head? = some e0
  cell : ∀ e ∈ es, e.cell.pyEq e0.cell = true
  mapping : ∃ m : Option String, (∀ e ∈ es, ∀ x ∈ e.mapping, x = m) ∧ ∃ e ∈ es, m ∈ e.mapping
  shape : ∀ e ∈ es, e.shape = e0.shape
  order : es.length = 1 ∨ ∀ e ∈ es, e.order ≠ none
  degree : ∀ e ∈ es, e.degree ≠ none
  ids : ∃ ids, concatenateEntityDofs e0.cell.data.topo (es.map fun e => (e.nodes.length, e.ids)) = some ids

/-- Specification: the enriched element `r`. -/
structure EnrichedFrom (es : List (ElemInfo α ν)) (e0 r : ElemInfo α ν) : Prop where
  cell : r.cell = e0.cell
  ids : concatenateEntityDofs e0.cell.data.topo (es.map fun e => (e.nodes.length, e.ids)) = some r.ids
  nodes : r.nodes = (es.map fun e => e.nodes).flatten
  mapping : r.mapping.length = r.nodes.length ∧ ∀ x ∈ r.mapping, ∀ e ∈ es, ∀ y ∈ e.mapping, x = y
  shape : r.shape = e0.shape
  order : (∃ e ∈ es, r.order = e.order) ∧ ∀ e ∈ es, ∀ a b, e.order = some a → r.order = some b → a ≤ b
  formdegree : r.formdegree = none ↔ ∃ e ∈ es, e.formdegree = none
  formdegree_max : ∀ k, r.formdegree = some k → (∃ e ∈ es, e.formdegree = some k) ∧ ∀ e ∈ es, ∀ j, e.formdegree = some j → j ≤ k
  degree : ∃ k, r.degree = some k ∧ (∃ e ∈ es, e.degree = some k) ∧ ∀ e ∈ es, ∀ j, e.degree = some j → j ≤ k

/-! ### Sets -/

private theorem foldl_set {β : Type} (eq : β → β → Bool) (h1 : ∀ a, eq a a = true) (x : β) (xs : List β) (s : List β) (hs : x ∈ s) :
    (∃ t, xs.foldl (setInsert eq) s = s ++ t ∧ ∀ y ∈ t, y ∈ xs) ∧
    ((∀ y ∈ xs, eq y x = true) → xs.foldl (setInsert eq) s = s) ∧
    (∀ y ∈ xs, ∃ z ∈ xs.foldl (setInsert eq) s, eq y z = true) := by
  induction xs generalizing s with
  | nil => exact ⟨⟨[], by simp, by simp⟩, by simp, by simp⟩
  | cons y xs ih =>
    have hsub : ∀ z ∈ s, z ∈ setInsert eq s y := by
      intro z hz
      unfold setInsert
      split_ifs
      · exact hz
      · exact List.mem_append_left _ hz
    have hy : ∃ z ∈ setInsert eq s y, eq y z = true := by
      unfold setInsert
      split_ifs with h
      · obtain ⟨z, hz, e⟩ := List.any_eq_true.1 h
        exact ⟨z, hz, e⟩
      · exact ⟨y, by simp, h1 y⟩
    obtain ⟨⟨t, a1, a2⟩, a3, a4⟩ := ih (setInsert eq s y) (hsub x hs)
    refine ⟨?_, ?_, ?_⟩
    · rw [List.foldl_cons, a1]
      unfold setInsert
      split_ifs
      · exact ⟨t, rfl, fun z hz => List.mem_cons_of_mem _ (a2 z hz)⟩
      · refine ⟨y :: t, by simp, fun z hz => ?_⟩
        rcases List.mem_cons.1 hz with rfl | hz
        · exact List.mem_cons_self
        · exact List.mem_cons_of_mem _ (a2 z hz)
    · intro h
      have : setInsert eq s y = s := if_pos (List.any_eq_true.2 ⟨x, hs, h y List.mem_cons_self⟩)
      rw [this] at a3
      rw [List.foldl_cons, this]
      exact a3 fun z hz => h z (List.mem_cons_of_mem _ hz)
    · intro z hz
      rw [List.foldl_cons]
      rcases List.mem_cons.1 hz with rfl | hz
      · obtain ⟨w, hw, e⟩ := hy
        exact ⟨w, by rw [a1]; exact List.mem_append_left _ hw, e⟩
      · exact a4 z hz

/-- A set of equal things has one member, the first. -/
private theorem pySet_cons {β : Type} (eq : β → β → Bool) (h1 : ∀ a, eq a a = true) (h2 : ∀ a b, eq a b = true → eq b a = true)
    (x : β) (xs : List β) : (∃ t, pySet eq (x :: xs) = x :: t) ∧
    ((pySet eq (x :: xs)).length = 1 ↔ ∀ y ∈ x :: xs, eq y x = true) ∧ ((pySet eq (x :: xs)).length = 1 → pySet eq (x :: xs) = [x]) := by
  have e : pySet eq (x :: xs) = xs.foldl (setInsert eq) [x] := by
    unfold pySet
    rw [List.foldl_cons]
    rfl
  obtain ⟨⟨t, a1, a2⟩, a3, a4⟩ := foldl_set eq h1 x xs [x] (by simp)
  have key : (pySet eq (x :: xs)).length = 1 → pySet eq (x :: xs) = [x] := by
    intro h
    rw [e, a1] at h ⊢
    have : t = [] := List.length_eq_zero_iff.1 (by simpa using h)
    rw [this]; rfl
  refine ⟨⟨t, by rw [e, a1]; rfl⟩, ⟨fun h y hy => ?_, fun h => ?_⟩, key⟩
  · rcases List.mem_cons.1 hy with rfl | hy
    · exact h1 y
    · obtain ⟨z, hz, ez⟩ := a4 y hy
      have h' := key h
      rw [e] at h'
      rw [h', List.mem_singleton] at hz
      rw [← hz]; exact ez
  · rw [e, a3 fun y hy => h y (List.mem_cons_of_mem _ hy)]
    rfl

private theorem dec_refl {β : Type} [DecidableEq β] (a : β) : (fun a b : β => decide (a = b)) a a = true := by simp
private theorem dec_symm {β : Type} [DecidableEq β] (a b : β) (h : (fun a b : β => decide (a = b)) a b = true) :
    (fun a b : β => decide (a = b)) b a = true := by simpa [eq_comm] using h

/-! ### Maxima -/

private theorem foldl_max_spec (xs : List ℕ) (x : ℕ) : (xs.foldl max x ∈ x :: xs) ∧ ∀ y ∈ x :: xs, y ≤ xs.foldl max x := by
  induction xs generalizing x with
  | nil => simp
  | cons y xs ih =>
    obtain ⟨h1, h2⟩ := ih (max x y)
    rw [List.foldl_cons]
    refine ⟨?_, fun z hz => ?_⟩
    · rcases List.mem_cons.1 h1 with h1 | h1
      · rcases max_choice x y with h | h <;> rw [h] at h1 ⊢ <;> rw [h1] <;> simp
      · simp [h1]
    · have hm := h2 (max x y) List.mem_cons_self
      rcases List.mem_cons.1 hz with rfl | hz
      · exact (le_max_left _ _).trans hm
      · rcases List.mem_cons.1 hz with rfl | hz
        · exact (le_max_right _ _).trans hm
        · exact h2 z (List.mem_cons_of_mem _ hz)

private theorem maxNats_spec {xs : List ℕ} (h : xs ≠ []) : ∃ m, maxNats xs = .ok m ∧ m ∈ xs ∧ ∀ y ∈ xs, y ≤ m := by
  cases xs with
  | nil => exact absurd rfl h
  | cons x xs => exact ⟨_, rfl, (foldl_max_spec xs x).1, (foldl_max_spec xs x).2⟩

private theorem maxOrder_fold (xs : List (Option ℤ)) (x : Option ℤ) :
    ((∃ m, xs.foldlM (fun (m : Option ℤ) (y : Option ℤ) => do
      let b ← gtOrder y m
      pure (if b then y else m)) x = .ok m) ↔ xs = [] ∨ ∀ y ∈ x :: xs, y ≠ none) ∧
    ∀ m, xs.foldlM (fun (m : Option ℤ) (y : Option ℤ) => do
      let b ← gtOrder y m
      pure (if b then y else m)) x = .ok m → m ∈ x :: xs ∧ ∀ y ∈ x :: xs, ∀ a b, y = some a → m = some b → a ≤ b := by
  induction xs generalizing x with
  | nil =>
    refine ⟨⟨fun _ => Or.inl rfl, fun _ => ⟨x, rfl⟩⟩, fun m h => ?_⟩
    have : x = m := by simpa [pure, Except.pure] using h
    subst this
    refine ⟨by simp, fun y hy a b h1 h2 => ?_⟩
    rw [List.mem_singleton] at hy
    rw [hy, h2, Option.some.injEq] at h1
    exact h1.symm.le
  | cons y xs ih =>
    rw [List.foldlM_cons]
    cases x with
    | none =>
      have e : gtOrder y none = .error .typeError := by cases y <;> rfl
      rw [e]
      refine ⟨⟨fun h => ?_, fun h => ?_⟩, fun m h => ?_⟩
      · obtain ⟨m, h⟩ := h
        exact nomatch h
      · rcases h with h | h
        · exact nomatch h
        · exact absurd rfl (h none List.mem_cons_self)
      · exact nomatch h
    | some a0 =>
      cases y with
      | none =>
        refine ⟨⟨fun h => ?_, fun h => ?_⟩, fun m h => ?_⟩
        · obtain ⟨m, h⟩ := h
          exact nomatch h
        · rcases h with h | h
          · exact nomatch h
          · exact absurd rfl (h none (by simp))
        · exact nomatch h
      | some b0 =>
        have e : (do
          let b ← gtOrder (some b0) (some a0)
          pure (if b then some b0 else some a0) : Except InitFail (Option ℤ)) = .ok (some (max a0 b0)) := by
          show Except.ok (if decide (b0 > a0) = true then some b0 else some a0) = _
          by_cases h : b0 > a0
          · rw [if_pos (by simpa using h), max_eq_right h.le]
          · rw [if_neg (by simpa using h), max_eq_left (not_lt.1 h)]
        rw [e]
        obtain ⟨h1, h2⟩ := ih (some (max a0 b0))
        refine ⟨?_, fun m h => ?_⟩
        · refine h1.trans ?_
          constructor
          · rintro (rfl | h)
            · right; simp
            · right
              intro y hy
              rcases List.mem_cons.1 hy with rfl | hy
              · simp
              · rcases List.mem_cons.1 hy with rfl | hy
                · simp
                · exact h y (List.mem_cons_of_mem _ hy)
          · rintro (h | h)
            · exact nomatch h
            · right
              intro y hy
              rcases List.mem_cons.1 hy with rfl | hy
              · simp
              · exact h y (by simp [hy])
        · obtain ⟨k1, k2⟩ := h2 m h
          refine ⟨?_, fun y hy a b e1 e2 => ?_⟩
          · rcases List.mem_cons.1 k1 with k1 | k1
            · rcases max_choice a0 b0 with h | h <;> rw [h] at k1 <;> rw [k1] <;> simp
            · simp [k1]
          · have hm := k2 _ List.mem_cons_self (max a0 b0) b rfl e2
            rcases List.mem_cons.1 hy with rfl | hy
            · rw [Option.some.injEq] at e1
              exact e1 ▸ (le_max_left _ _).trans hm
            · rcases List.mem_cons.1 hy with rfl | hy
              · rw [Option.some.injEq] at e1
                exact e1 ▸ (le_max_right _ _).trans hm
              · exact k2 y (List.mem_cons_of_mem _ hy) a b e1 e2

private theorem mapM_opt {β γ : Type} (f : β → Option γ) (l : List β) :
    ((∃ r, l.mapM f = some r) ↔ ∀ x ∈ l, f x ≠ none) ∧ ∀ r, l.mapM f = some r → ∀ y, y ∈ r ↔ ∃ x ∈ l, f x = some y := by
  induction l with
  | nil =>
    refine ⟨by simp, fun r h y => ?_⟩
    have : r = [] := by simpa using h.symm
    simp [this]
  | cons x l ih =>
    rw [List.mapM_cons]
    cases hx : f x with
    | none =>
      refine ⟨⟨fun ⟨r, h⟩ => (nomatch h), fun h => absurd hx (h x List.mem_cons_self)⟩, fun r h => (nomatch h)⟩
    | some z =>
      cases hl : l.mapM f with
      | none =>
        rw [hl] at ih
        refine ⟨⟨fun ⟨r, h⟩ => (nomatch h), fun h => ?_⟩, fun r h => (nomatch h)⟩
        obtain ⟨r, hr⟩ := ih.1.2 fun y hy => h y (List.mem_cons_of_mem _ hy)
        exact nomatch hr
      | some r0 =>
        rw [hl] at ih
        refine ⟨⟨fun _ y hy => ?_, fun _ => ⟨z :: r0, rfl⟩⟩, fun r h y => ?_⟩
        · rcases List.mem_cons.1 hy with rfl | hy
          · rw [hx]; simp
          · exact ih.1.1 ⟨r0, rfl⟩ y hy
        · have hr : z :: r0 = r := by simpa using h
          rw [← hr, List.mem_cons, ih.2 r0 rfl y]
          simp [hx, eq_comm]

private theorem bind_ok {ε β γ : Type} {x : Except ε β} {f : β → Except ε γ} {r : γ} : (x >>= f) = .ok r ↔ ∃ a, x = .ok a ∧ f a = .ok r := by
  cases x <;> simp [bind, Except.bind]

private theorem pure_ok {ε β : Type} {x r : β} : (pure x : Except ε β) = .ok r ↔ x = r := by simp [pure, Except.pure]

private theorem unpack_set {β : Type} (eq : β → β → Bool) (h1 : ∀ a, eq a a = true) (h2 : ∀ a b, eq a b = true → eq b a = true)
    (xs : List β) (a : β) : (checkOne (pySet eq xs) = .ok () ∧ unpackSingle (pySet eq xs) = .ok a) ↔
      xs.head? = some a ∧ ∀ y ∈ xs, eq y a = true := by
  cases xs with
  | nil =>
    constructor
    · rintro ⟨-, h⟩
      exact nomatch h
    · rintro ⟨h, -⟩
      exact nomatch h
  | cons x xs =>
    obtain ⟨⟨t, h3⟩, h4, h5⟩ := pySet_cons eq h1 h2 x xs
    rw [List.head?_cons, Option.some.injEq]
    constructor
    · rintro ⟨-, h⟩
      have ht : t = [] := by
        cases t with
        | nil => rfl
        | cons y t => rw [h3] at h; exact nomatch h
      subst ht
      have hx : x = a := by
        rw [h3] at h
        exact Except.ok.inj h
      exact ⟨hx, hx ▸ h4.1 (by rw [h3]; rfl)⟩
    · rintro ⟨rfl, h⟩
      rw [h5 (h4.2 h)]
      exact ⟨rfl, rfl⟩

private theorem check_of_unpack {β : Type} {s : List β} {a : β} (h : unpackSingle s = .ok a) : checkOne s = .ok () := by
  cases s with
  | nil => exact nomatch h
  | cons x s =>
    cases s with
    | nil => rfl
    | cons y s => exact nomatch h

private theorem unpack_iff {β : Type} (eq : β → β → Bool) (h1 : ∀ a, eq a a = true) (h2 : ∀ a b, eq a b = true → eq b a = true)
    (xs : List β) (a : β) : unpackSingle (pySet eq xs) = .ok a ↔ xs.head? = some a ∧ ∀ y ∈ xs, eq y a = true := by
  rw [← unpack_set eq h1 h2]
  exact ⟨fun h => ⟨check_of_unpack h, h⟩, fun h => h.2⟩

private theorem formdegree_spec {es : List (ElemInfo α ν)} (h : es ≠ []) : ∃ f, commonFormdegree es = .ok f ∧
    (f = none ↔ ∃ e ∈ es, e.formdegree = none) ∧
    ∀ k, f = some k → (∃ e ∈ es, e.formdegree = some k) ∧ ∀ e ∈ es, ∀ j, e.formdegree = some j → j ≤ k := by
  unfold commonFormdegree
  by_cases hn : ∃ e ∈ es, e.formdegree = none
  · refine ⟨none, if_pos (List.any_eq_true.2 ?_), by simpa using hn, fun k hk => nomatch hk⟩
    obtain ⟨e, he, h⟩ := hn
    exact ⟨e, he, by rw [h]; rfl⟩
  · have hs : ∀ e ∈ es, ∃ k, e.formdegree = some k := fun e he => Option.ne_none_iff_exists'.1 fun h => hn ⟨e, he, h⟩
    obtain ⟨m, m1, m2, m3⟩ := maxNats_spec (xs := es.filterMap fun e => e.formdegree) (by
      cases es with
      | nil => exact absurd rfl h
      | cons e es =>
        obtain ⟨k, hk⟩ := hs e (by simp)
        rw [List.filterMap_cons_some hk]
        simp)
    refine ⟨some m, ?_, by simpa using hn, fun k hk => ?_⟩
    · rw [if_neg, m1]
      · rfl
      · rw [Bool.not_eq_true, List.any_eq_false]
        intro e he
        obtain ⟨k, hk⟩ := hs e he
        rw [hk]; simp
    · rw [Option.some.injEq] at hk
      subst hk
      rw [List.mem_filterMap] at m2
      exact ⟨m2, fun e he j hj => m3 j (List.mem_filterMap.2 ⟨e, he, hj⟩)⟩

private theorem degree_spec {es : List (ElemInfo α ν)} (h : es ≠ []) : ((∃ k, maxDegree es = .ok k) ↔ ∀ e ∈ es, e.degree ≠ none) ∧
    ∀ k, maxDegree es = .ok k → (∃ e ∈ es, e.degree = some k) ∧ ∀ e ∈ es, ∀ j, e.degree = some j → j ≤ k := by
  obtain ⟨h1, h2⟩ := mapM_opt (fun e : ElemInfo α ν => e.degree) es
  unfold maxDegree
  cases hl : es.mapM fun e => e.degree with
  | none =>
    refine ⟨⟨fun ⟨k, h⟩ => (nomatch h), fun h => ?_⟩, fun k h => (nomatch h)⟩
    obtain ⟨r, hr⟩ := h1.2 h
    rw [hl] at hr
    exact nomatch hr
  | some l =>
    have hmem := h2 l hl
    have hall := h1.1 ⟨l, hl⟩
    obtain ⟨m, m1, m2, m3⟩ := maxNats_spec (xs := l) (by
      rintro rfl
      cases es with
      | nil => exact h rfl
      | cons e es =>
        obtain ⟨k, hk⟩ := Option.ne_none_iff_exists'.1 (hall e (by simp))
        have := (hmem k).2 ⟨e, by simp, hk⟩
        simp at this)
    refine ⟨⟨fun _ => hall, fun _ => ⟨m, m1⟩⟩, fun k hk => ?_⟩
    have hk' : maxNats l = .ok k := hk
    rw [m1] at hk'
    obtain rfl : m = k := Except.ok.inj hk'
    exact ⟨(hmem m).1 m2, fun e he j hj => m3 j ((hmem j).2 ⟨e, he, hj⟩)⟩

private theorem order_spec {es : List (ElemInfo α ν)} (h : es ≠ []) :
    ((∃ k, maxOrder (es.map fun e => e.order) = .ok k) ↔ es.length = 1 ∨ ∀ e ∈ es, e.order ≠ none) ∧
    ∀ k, maxOrder (es.map fun e => e.order) = .ok k →
      (∃ e ∈ es, k = e.order) ∧ ∀ e ∈ es, ∀ a b, e.order = some a → k = some b → a ≤ b := by
  cases es with
  | nil => exact absurd rfl h
  | cons e0 es =>
    obtain ⟨h1, h2⟩ := maxOrder_fold (es.map fun e => e.order) e0.order
    refine ⟨?_, fun k hk => ?_⟩
    · refine h1.trans (or_congr ?_ ?_)
      · simp
      · rw [← List.map_cons (f := fun e : ElemInfo α ν => e.order)]
        simp only [List.mem_map, forall_exists_index, and_imp, forall_apply_eq_imp_iff₂]
    · obtain ⟨k1, k2⟩ := h2 k hk
      rw [← List.map_cons (f := fun e : ElemInfo α ν => e.order), List.mem_map] at k1
      obtain ⟨e, he, h⟩ := k1
      refine ⟨⟨e, he, h.symm⟩, fun e he a b h1 h2 => k2 e.order ?_ a b h1 h2⟩
      rw [← List.map_cons (f := fun e : ElemInfo α ν => e.order)]
      exact List.mem_map_of_mem he

private theorem enriched_ok (es : List (ElemInfo α ν)) (r : ElemInfo α ν) : enrichedInit es = .ok r ↔
    ∃ e0 m sh o f ids k, es.head? = some e0 ∧ (∀ e ∈ es, e.cell.pyEq e0.cell = true) ∧
      (es.flatMap fun e => e.mapping).head? = some m ∧ (∀ x ∈ es.flatMap fun e => e.mapping, x = m) ∧
      sh = e0.shape ∧ (∀ e ∈ es, e.shape = sh) ∧ maxOrder (es.map fun e => e.order) = .ok o ∧ commonFormdegree es = .ok f ∧
      concatIds e0.cell es = .ok ids ∧ maxDegree es = .ok k ∧
      r = { cell := e0.cell, ids := ids, nodes := es.flatMap fun e => e.nodes,
            mapping := List.replicate (es.flatMap fun e => e.nodes).length m, shape := sh, order := o, formdegree := f, degree := some k } := by
  have d1 : ∀ {β : Type} [DecidableEq β] (xs : List β) (a : β), unpackSingle (pySet (fun a b : β => decide (a = b)) xs) = .ok a ↔
      xs.head? = some a ∧ ∀ y ∈ xs, y = a := fun xs a => by
    rw [unpack_iff _ dec_refl dec_symm]
    simp only [decide_eq_true_eq]
  unfold enrichedInit
  simp only [bind_ok, pure_ok]
  constructor
  · rintro ⟨-, -, -, -, -, -, o, ho, f, hf, c, hc, m, hm, ids, hids, k, hk, sh, hsh, rfl⟩
    rw [unpack_iff _ cell_eq_equivalence.refl (fun a b h => cell_eq_equivalence.symm h)] at hc
    rw [d1] at hm hsh
    cases es with
    | nil => exact nomatch hc.1
    | cons e0 es =>
      obtain rfl : e0.cell = c := by simpa using hc.1
      obtain rfl : e0.shape = sh := by simpa using hsh.1
      refine ⟨e0, m, e0.shape, o, f, ids, k, rfl, fun e he => hc.2 _ (List.mem_map_of_mem he), hm.1, hm.2, rfl, fun e he => hsh.2 _ (List.mem_map_of_mem he),
        ho, hf, hids, hk, rfl⟩
  · rintro ⟨e0, m, sh, o, f, ids, k, h0, hc, hm1, hm2, rfl, hsh, ho, hf, hids, hk, rfl⟩
    have hc' := (unpack_iff _ cell_eq_equivalence.refl (fun a b h => cell_eq_equivalence.symm h) (es.map fun e => e.cell) e0.cell).2
      ⟨by rw [List.head?_map, h0]; rfl, by simpa using hc⟩
    have hm' := (d1 (es.flatMap fun e => e.mapping) m).2 ⟨hm1, hm2⟩
    have hs' := (d1 (es.map fun e => e.shape) e0.shape).2 ⟨by rw [List.head?_map, h0]; rfl, by simpa using hsh⟩
    exact ⟨(), check_of_unpack hc', (), check_of_unpack hm', (), check_of_unpack hs', o, ho, f, hf, e0.cell, hc', m, hm', ids, hids, k, hk,
      e0.shape, hs', rfl⟩

/-- C80: `EnrichedElement(*elements)` succeeds exactly on the elements that may be enriched; the result is as specified. -/
theorem enriched_init_spec (es : List (ElemInfo α ν)) :
    ((∃ r, enrichedInit es = .ok r) ↔ ∃ e0, Enrichable es e0) ∧
    ∀ r e0, enrichedInit es = .ok r → es.head? = some e0 → EnrichedFrom es e0 r := by
  have hcid : ∀ (c : CellObj α) ids, concatIds c es = .ok ids ↔
      concatenateEntityDofs c.data.topo (es.map fun e => (e.nodes.length, e.ids)) = some ids := by
    intro c ids
    unfold concatIds
    split
    · rename_i ids' h
      rw [h]
      exact ⟨fun h => congrArg some (Except.ok.inj h), fun h => congrArg Except.ok (Option.some.inj h)⟩
    · rename_i h
      rw [h]
      exact ⟨fun h => (nomatch h), fun h => (nomatch h)⟩
  constructor
  · constructor
    · rintro ⟨r, h⟩
      obtain ⟨e0, m, sh, o, f, ids, k, h0, hc, hm1, hm2, rfl, hsh, ho, hf, hids, hk, rfl⟩ := (enriched_ok es r).1 h
      have hne : es ≠ [] := by rintro rfl; exact nomatch h0
      refine ⟨e0, h0, hc, ⟨m, fun e he x hx => hm2 x (List.mem_flatMap.2 ⟨e, he, hx⟩), ?_⟩, hsh, (order_spec hne).1.1 ⟨o, ho⟩,
        (degree_spec hne).1.1 ⟨k, hk⟩, ids, (hcid _ _).1 hids⟩
      exact List.mem_flatMap.1 (List.mem_of_head? hm1)
    · rintro ⟨e0, h0, hc, ⟨m, hm1, hm2⟩, hsh, ho, hd, ids, hids⟩
      have hne : es ≠ [] := by rintro rfl; exact nomatch h0
      obtain ⟨o, ho⟩ := (order_spec hne).1.2 ho
      obtain ⟨k, hk⟩ := (degree_spec hne).1.2 hd
      obtain ⟨f, hf, -⟩ := formdegree_spec hne
      have hall : ∀ x ∈ es.flatMap fun e => e.mapping, x = m := fun x hx => by
        obtain ⟨e, he, hx⟩ := List.mem_flatMap.1 hx
        exact hm1 e he x hx
      have hhead : (es.flatMap fun e => e.mapping).head? = some m := by
        have hmem : m ∈ es.flatMap fun e => e.mapping := List.mem_flatMap.2 hm2
        cases hl : es.flatMap fun e => e.mapping with
        | nil => rw [hl] at hmem; simp at hmem
        | cons x l =>
          rw [hl] at hall
          rw [List.head?_cons, hall x List.mem_cons_self]
      exact ⟨_, (enriched_ok es _).2 ⟨e0, m, e0.shape, o, f, ids, k, h0, hc, hhead, hall, rfl, hsh, ho, hf, (hcid _ _).2 hids, hk, rfl⟩⟩
  · intro r e1 h h1
    obtain ⟨e0, m, sh, o, f, ids, k, h0, hc, hm1, hm2, rfl, hsh, ho, hf, hids, hk, rfl⟩ := (enriched_ok es r).1 h
    have hne : es ≠ [] := by rintro rfl; exact nomatch h0
    rw [h0, Option.some.injEq] at h1
    subst h1
    obtain ⟨f', hf', f1, f2⟩ := formdegree_spec hne
    rw [hf, Except.ok.injEq] at hf'
    subst hf'
    exact ⟨rfl, (hcid _ _).1 hids, rfl, ⟨List.length_replicate, fun x hx e he y hy => by
        rw [List.eq_of_mem_replicate hx, hm2 y (List.mem_flatMap.2 ⟨e, he, hy⟩)]⟩, rfl, (order_spec hne).2 o ho, f1, f2,
      k, rfl, (degree_spec hne).2 k hk⟩

/-- C80: different cells, mappings or value shapes are rejected with a `ValueError`. -/
theorem enriched_init_rejects (es : List (ElemInfo α ν)) (h : (∃ e ∈ es, ∃ e' ∈ es, ¬ e.cell.pyEq e'.cell = true) ∨
    (∃ e ∈ es, ∃ e' ∈ es, ∃ x ∈ e.mapping, ∃ x' ∈ e'.mapping, x ≠ x') ∨ (∃ e ∈ es, ∃ e' ∈ es, e.shape ≠ e'.shape)) :
    enrichedInit es = .error .valueError := by
  have key : ∀ {β : Type} (eq : β → β → Bool), (∀ a, eq a a = true) → (∀ a b, eq a b = true → eq b a = true) →
      (∀ a b c, eq a b = true → eq b c = true → eq a c = true) → ∀ xs : List β,
      (∃ x ∈ xs, ∃ y ∈ xs, ¬ eq x y = true) → checkOne (pySet eq xs) = .error .valueError := by
    intro β eq h1 h2 h3 xs ⟨x, hx, y, hy, hxy⟩
    cases xs with
    | nil => simp at hx
    | cons z xs =>
      obtain ⟨⟨t, k1⟩, k2, -⟩ := pySet_cons eq h1 h2 z xs
      refine if_pos ?_
      by_contra hlt
      have hl : (pySet eq (z :: xs)).length = 1 := by
        rw [k1, List.length_cons] at hlt ⊢
        omega
      exact hxy (h3 _ _ _ (k2.1 hl x hx) (h2 _ _ (k2.1 hl y hy)))
  have hd : ∀ {β : Type} [DecidableEq β] (xs : List β), (∃ x ∈ xs, ∃ y ∈ xs, x ≠ y) →
      checkOne (pySet (fun a b : β => decide (a = b)) xs) = .error .valueError := fun xs h =>
    key _ dec_refl dec_symm (fun a b c h1 h2 => by simp only [decide_eq_true_eq] at *; rw [h1, h2]) xs (by simpa using h)
  have two : ∀ {β : Type} (s : List β), checkOne s = .ok () ∨ checkOne s = .error .valueError := fun s => by
    unfold checkOne
    split_ifs
    · exact Or.inr rfl
    · exact Or.inl rfl
  unfold enrichedInit
  rcases two (pySet CellObj.pyEq (es.map fun e => e.cell)) with c1 | c1
  · rcases two (pySet (fun a b : Option String => decide (a = b)) (es.flatMap fun e => e.mapping)) with c2 | c2
    · rcases two (pySet (fun a b : List ℕ => decide (a = b)) (es.map fun e => e.shape)) with c3 | c3
      · exfalso
        rcases h with ⟨e, he, e', he', h⟩ | ⟨e, he, e', he', x, hx, x', hx', h⟩ | ⟨e, he, e', he', h⟩
        · rw [key _ cell_eq_equivalence.refl (fun a b h => cell_eq_equivalence.symm h) (fun a b c h h' => cell_eq_equivalence.trans h h') _
            ⟨_, List.mem_map_of_mem he, _, List.mem_map_of_mem he', h⟩] at c1
          exact nomatch c1
        · rw [hd _ ⟨x, List.mem_flatMap.2 ⟨e, he, hx⟩, x', List.mem_flatMap.2 ⟨e', he', hx'⟩, h⟩] at c2
          exact nomatch c2
        · rw [hd _ ⟨_, List.mem_map_of_mem he, _, List.mem_map_of_mem he', h⟩] at c3
          exact nomatch c3
      · simp only [c1, c2, c3]; rfl
    · simp only [c1, c2]; rfl
  · simp only [c1]; rfl

/-- C80: `MixedElement(elements, ref_el)` succeeds exactly if there is a cell, all cells are equal and the dofs belong to its entities; the
basis functions, their dofs and their mappings are concatenated, and the value shape is the total number of components. -/
theorem mixed_init_spec (es : List (ElemInfo α ν)) (refEl : Option (CellObj α)) (r : ElemInfo α ν) :
    mixedInit es refEl = .ok r ↔ ∃ c, (es.map (fun e => e.cell) ++ refEl.toList).head? = some c ∧
      (∀ e ∈ es, e.cell.pyEq c = true) ∧ (∀ c' ∈ refEl, c'.pyEq c = true) ∧
      r.cell = c ∧ concatenateEntityDofs c.data.topo (es.map fun e => (e.nodes.length, e.ids)) = some r.ids ∧
      r.nodes = (es.map fun e => e.nodes).flatten ∧ r.mapping = (es.map fun e => e.mapping).flatten ∧
      r.shape = [(es.map fun e => e.shape.prod).sum] ∧ r.order = none ∧ r.formdegree = none ∧ r.degree = none := by
  have hset : mixedInit es refEl = (do
      let cell ← unpackSingle (pySet CellObj.pyEq (es.map (fun e => e.cell) ++ refEl.toList))
      let ids ← concatIds cell es
      pure { cell := cell, ids := ids, nodes := es.flatMap fun e => e.nodes, mapping := es.flatMap fun e => e.mapping,
             shape := [(es.map fun e => e.shape.prod).sum], order := none, formdegree := none, degree := none }) := by
    cases refEl with
    | none => simp [mixedInit]
    | some c => unfold mixedInit pySet; rw [List.foldl_append]; rfl
  have hcid : ∀ (c : CellObj α) ids, concatIds c es = .ok ids ↔
      concatenateEntityDofs c.data.topo (es.map fun e => (e.nodes.length, e.ids)) = some ids := by
    intro c ids
    unfold concatIds
    split
    · rename_i ids' h
      rw [h]
      exact ⟨fun h => congrArg some (Except.ok.inj h), fun h => congrArg Except.ok (Option.some.inj h)⟩
    · rename_i h
      rw [h]
      exact ⟨fun h => (nomatch h), fun h => (nomatch h)⟩
  rw [hset]
  simp only [bind_ok, pure_ok, unpack_iff _ cell_eq_equivalence.refl (fun a b h => cell_eq_equivalence.symm h), hcid]
  constructor
  · rintro ⟨c, ⟨h1, h2⟩, ids, h3, rfl⟩
    refine ⟨c, h1, fun e he => h2 _ (List.mem_append_left _ (List.mem_map_of_mem he)), fun c' hc' => h2 _ (List.mem_append_right _ ?_), rfl, h3,
      rfl, rfl, rfl, rfl, rfl, rfl⟩
    rw [Option.mem_def] at hc'
    rw [hc']; simp
  · rintro ⟨c, h1, h2, h3, k1, k2, k3, k4, k5, k6, k7, k8⟩
    refine ⟨c, ⟨h1, fun y hy => ?_⟩, r.ids, k2, ?_⟩
    · rcases List.mem_append.1 hy with hy | hy
      · obtain ⟨e, he, rfl⟩ := List.mem_map.1 hy
        exact h2 e he
      · exact h3 y (by simpa [eq_comm] using hy)
    · have e1 : (es.flatMap fun e => e.nodes) = r.nodes := by rw [k3]; rfl
      have e2 : (es.flatMap fun e => e.mapping) = r.mapping := by rw [k4]; rfl
      obtain ⟨rc, rids, rn, rm, rs, ro, rf, rd⟩ := r
      simp only at k1 k5 k6 k7 k8 e1 e2
      rw [e1, e2, k1, k5, k6, k7, k8]

/-! ### Instances -/

/-- Linear Lagrange and quadratic bubble on the interval, as the constructors see them. -/
def exP1 : ElemInfo ℤ ℕ where
  cell := CellObj.new .ufcInterval
  ids := [(.int 0, [(0, [0]), (1, [1])]), (.int 1, [(0, [])])]
  nodes := [10, 11]
  mapping := [some "affine", some "affine"]
  shape := []
  order := some 1
  formdegree := some 0
  degree := some 1

def exBubble : ElemInfo ℤ ℕ where
  cell := CellObj.new .ufcInterval
  ids := [(.int 0, [(0, []), (1, [])]), (.int 1, [(0, [0])])]
  nodes := [12]
  mapping := [some "affine"]
  shape := []
  order := some 2
  formdegree := some 0
  degree := some 2

/-- `P1 + B2` is accepted; its bubble dof is number 2; enriching with a piecewise constant of another mapping is rejected. -/
example : (∃ r, enrichedInit [exP1, exBubble] = .ok r ∧ r.nodes = [10, 11, 12] ∧ r.order = some 2 ∧ r.formdegree = some 0 ∧ r.degree = some 2 ∧
    r.ids = [(.int 0, [(0, [0]), (1, [1])]), (.int 1, [(0, [2])])] ∧ r.mapping.length = 3) ∧
    enrichedInit [exP1, { exBubble with mapping := [some "covariant piola"] }] = .error .valueError ∧
    enrichedInit ([] : List (ElemInfo ℤ ℕ)) = .error .valueError := by
  refine ⟨?_, enriched_init_rejects _ (Or.inr (Or.inl ⟨exP1, by simp, _, List.mem_cons_of_mem _ List.mem_cons_self, some "affine",
    by simp [exP1], some "covariant piola", by simp, by decide⟩)), rfl⟩
  refine ⟨_, rfl, ?_⟩
  decide +kernel

example : ∃ r, mixedInit [exP1, exBubble] none = .ok r ∧ r.shape = [2] ∧ r.nodes = [10, 11, 12] := by
  refine ⟨_, rfl, ?_⟩
  decide +kernel

end
end FIAT
