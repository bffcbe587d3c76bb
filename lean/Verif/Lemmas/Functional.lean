/- Helper lemmas for `Verif.Props.Functional`: accumulating loops as sums. -/
import Verif.Model.Functional
import Verif.Lemmas.Cell
import Mathlib.Algebra.BigOperators.Group.List.Basic
import Mathlib.Algebra.BigOperators.Ring.List
import Mathlib.Data.List.Perm.Basic

namespace FIAT

variable {K P : Type} [Field K] [DecidableEq P]

theorem foldl_addAt {κ : Type} [DecidableEq κ] (evs : List (κ × K)) (m0 : κ → K) (k : κ) :
    (evs.foldl (fun m e => addAt m e.1 e.2) m0) k =
      m0 k + (evs.map fun e => if e.1 = k then e.2 else 0).sum := by
  induction evs generalizing m0 with
  | nil => simp
  | cons e evs ih =>
    rw [List.foldl_cons, ih, List.map_cons, List.sum_cons, ← add_assoc]
    congr 1
    unfold addAt
    by_cases h : e.1 = k
    · subst h; simp
    · rw [if_neg h, Function.update_of_ne (Ne.symm h), add_zero]

theorem foldlM_some {σ α : Type} (l : List α) (f : σ → α → Option σ) (g : σ → α → σ)
    (h : ∀ x ∈ l, ∀ s, f s x = some (g s x)) (s : σ) : l.foldlM f s = some (l.foldl g s) := by
  induction l generalizing s with
  | nil => rfl
  | cons x l ih =>
    rw [List.foldlM_cons, h x (by simp), List.foldl_cons]
    exact ih (fun y hy => h y (by simp [hy])) _

theorem sum_flatMap {α β M : Type*} [AddCommMonoid M] (l : List α) (g : α → List β) (f : β → M) :
    ((l.flatMap g).map f).sum = (l.map fun a => ((g a).map f).sum).sum := by
  induction l with
  | nil => rfl
  | cons a l ih => simp [ih]

/-- One entry of a sum over `range n` selected by an index. -/
theorem sum_range_select {M : Type*} [AddCommMonoid M] (n i : ℕ) (hi : i < n) (f : ℕ → M) :
    ((List.range n).map fun i' => if i' = i then f i' else 0).sum = f i := by
  induction n with
  | zero => omega
  | succ n ih =>
    rw [List.range_succ, List.map_append, List.sum_append]
    simp only [List.map_cons, List.map_nil, List.sum_cons, List.sum_nil, add_zero]
    by_cases h : n = i
    · subst h
      rw [if_pos rfl]
      have : ((List.range n).map fun i' => if i' = n then f i' else 0).sum = 0 := by
        apply List.sum_eq_zero
        intro x hx
        obtain ⟨a, ha, rfl⟩ := List.mem_map.1 hx
        rw [if_neg (by have := List.mem_range.1 ha; omega)]
      rw [this, zero_add]
    · rw [if_neg h, add_zero, ih (by omega)]

/-- A sum over `zipIdx` of a function of the element only. -/
theorem sum_zipIdx {α M : Type*} [AddCommMonoid M] (l : List α) (g : α → ℕ → M) (f : α → M)
    (h : ∀ j x, l[j]? = some x → g x j = f x) :
    (l.zipIdx.map fun p => g p.1 p.2).sum = (l.map f).sum := by
  congr 1
  apply List.ext_getElem?
  intro j
  rw [List.getElem?_map, List.getElem?_map, List.getElem?_zipIdx, Option.map_map]
  cases hj : l[j]? with
  | none => rfl
  | some x => simp [h j x hj]

theorem sum_filter_zero {α M : Type*} [AddCommMonoid M] (l : List α) (p : α → Prop) [DecidablePred p]
    (f : α → M) : (l.map fun x => if p x then f x else 0).sum = ((l.filter fun x => p x).map f).sum := by
  induction l with
  | nil => rfl
  | cons a l ih =>
    by_cases h : p a
    · simp [h, ih]
    · simp [h, ih]

theorem keys_foldl_appendAt_nodup {κ α : Type*} [DecidableEq κ] (ev : List (κ × α))
    (c : Dict κ (List α)) (hc : Dict.WF c) :
    Dict.WF (ev.foldl (fun c p => Dict.appendAt c p.1 [p.2]) c) := by
  induction ev generalizing c with
  | nil => exact hc
  | cons p ev ih => exact ih _ (hc.put _ _)

/-- The events of `ptsToElls`. -/
theorem ptsToElls_eq (keysOf : Functional K P → List P) (nodes : List (Functional K P)) :
    ptsToElls keysOf nodes = (nodes.zipIdx.flatMap fun li => (keysOf li.1).map fun pt => (pt, li.2)).foldl
      (fun c p => Dict.appendAt c p.1 [p.2]) [] := by
  unfold ptsToElls
  rw [List.foldl_flatMap]
  congr 1
  funext d li
  rw [List.foldl_map]

/-- Which nodes are recorded for a point. -/
theorem getD_ptsToElls (keysOf : Functional K P → List P) (nodes : List (Functional K P))
    (hk : ∀ l ∈ nodes, (keysOf l).Nodup) (x : P) :
    (Dict.get? (ptsToElls keysOf nodes) x).getD [] =
      (nodes.zipIdx.filter fun li => x ∈ keysOf li.1).map Prod.snd := by
  rw [ptsToElls_eq, getD_foldl_appendAt]
  simp only [Dict.get?_nil, Option.getD_none, List.nil_append]
  have : ∀ L : List (Functional K P × ℕ), (∀ p ∈ L, (keysOf p.1).Nodup) →
      ((L.flatMap fun li => (keysOf li.1).map fun pt => (pt, li.2)).filter fun p => p.1 = x).map Prod.snd =
      (L.filter fun li => x ∈ keysOf li.1).map Prod.snd := by
    intro L hL
    induction L with
    | nil => rfl
    | cons a L ih =>
      rw [List.flatMap_cons, List.filter_append, List.map_append, ih fun p hp => hL p (by simp [hp]),
        List.filter_map, List.map_map]
      have hnd := hL a (by simp)
      have hf : ((keysOf a.1).filter ((fun p : P × ℕ => decide (p.1 = x)) ∘ fun pt => (pt, a.2))) =
          if x ∈ keysOf a.1 then [x] else [] := by
        have : ((fun p : P × ℕ => decide (p.1 = x)) ∘ fun pt => (pt, a.2)) = fun y => decide (y = x) := rfl
        rw [this]
        generalize keysOf a.1 = kl at hnd
        induction kl with
        | nil => rfl
        | cons y kl ih2 =>
          obtain ⟨h1, h2⟩ := List.nodup_cons.1 hnd
          by_cases hy : y = x
          · subst hy
            rw [List.filter_cons_of_pos (by simp), ih2 h2, if_neg h1, if_pos (by simp)]
          · rw [List.filter_cons_of_neg (by simpa using hy), ih2 h2]
            simp [Ne.symm hy]
      rw [hf]
      by_cases hx : x ∈ keysOf a.1
      · rw [if_pos hx, List.filter_cons_of_pos (by simpa using hx)]; rfl
      · rw [if_neg hx, List.filter_cons_of_neg (by simpa using hx)]; rfl
  apply this
  intro p hp
  exact hk _ (List.fst_mem_of_mem_zipIdx hp)

theorem mem_keys_ptsToElls (keysOf : Functional K P → List P) (nodes : List (Functional K P)) (x : P) :
    x ∈ Dict.keys (ptsToElls keysOf nodes) ↔ ∃ l ∈ nodes, x ∈ keysOf l := by
  rw [ptsToElls_eq, mem_keys_foldl_appendAt]
  simp only [Dict.keys, List.map_nil, List.not_mem_nil, false_or, List.mem_flatMap, List.mem_map]
  constructor
  · rintro ⟨p, ⟨li, hli, pt, hpt, rfl⟩, rfl⟩
    exact ⟨li.1, List.fst_mem_of_mem_zipIdx hli, hpt⟩
  · rintro ⟨l, hl, hx⟩
    obtain ⟨i, hi, rfl⟩ := List.mem_iff_getElem.1 hl
    exact ⟨(x, i), ⟨(nodes[i], i), List.mem_iff_getElem.2 ⟨i, by simpa using hi, by simp⟩, x, hx, rfl⟩, rfl⟩

theorem nodup_keys_ptsToElls (keysOf : Functional K P → List P) (nodes : List (Functional K P)) :
    (Dict.keys (ptsToElls keysOf nodes)).Nodup := by
  rw [ptsToElls_eq]
  exact keys_foldl_appendAt_nodup _ _ (by simp [Dict.WF, Dict.keys])

/-- The three nested loops of `Functional.to_riesz`. -/
theorem loop3 {α β κ : Type} [DecidableEq κ] (X : List α) (num : ℕ) (L : α → List β) (key : β → κ)
    (val : β → α → ℕ → K) (m0 : κ × ℕ → K) (c : κ) (i : ℕ) (hi : i < num) :
    (X.foldl (fun r a => (List.range num).foldl (fun r i =>
      (L a).foldl (fun r b => addAt r (key b, i) (val b a i)) r) r) m0) (c, i) =
    m0 (c, i) + (X.map fun a => ((L a).map fun b => if key b = c then val b a i else 0).sum).sum := by
  have h : (X.foldl (fun r a => (List.range num).foldl (fun r i =>
      (L a).foldl (fun r b => addAt r (key b, i) (val b a i)) r) r) m0) =
      (X.flatMap fun a => (List.range num).flatMap fun i => (L a).map fun b =>
        (((key b, i) : κ × ℕ), val b a i)).foldl (fun m e => addAt m e.1 e.2) m0 := by
    rw [List.foldl_flatMap]
    congr 1; funext r a
    rw [List.foldl_flatMap]
    congr 1; funext r i
    rw [List.foldl_map]
  rw [h, foldl_addAt, sum_flatMap]
  congr 3
  funext a
  rw [sum_flatMap, ← sum_range_select num i hi
    (fun i => ((L a).map fun b => if key b = c then val b a i else 0).sum)]
  congr 2
  funext i'
  rw [List.map_map]
  by_cases h : i' = i
  · subst h
    rw [if_pos rfl]
    congr 2; funext b
    simp [Function.comp]
  · rw [if_neg h]
    apply List.sum_eq_zero
    intro x hx
    obtain ⟨b, _, rfl⟩ := List.mem_map.1 hx
    simp [h]

/-- The four nested loops of `DualSet.to_riesz`. -/
theorem loop4 {α β κ : Type} [DecidableEq κ] (X : List α) (W : α → List ℕ) (num : ℕ)
    (L : α → ℕ → List β) (key : β → κ) (val : β → α → ℕ → K)
    (m0 : ℕ × κ × ℕ → K) (k : ℕ) (c : κ) (i : ℕ) (hi : i < num) :
    (X.foldl (fun m a => (W a).foldl (fun m k => (List.range num).foldl (fun m i =>
      (L a k).foldl (fun m b => addAt m (k, key b, i) (val b a i)) m) m) m) m0) (k, c, i) =
    m0 (k, c, i) + (X.map fun a => ((W a).map fun k' =>
      if k' = k then ((L a k).map fun b => if key b = c then val b a i else 0).sum else 0).sum).sum := by
  have h : (X.foldl (fun m a => (W a).foldl (fun m k => (List.range num).foldl (fun m i =>
      (L a k).foldl (fun m b => addAt m (k, key b, i) (val b a i)) m) m) m) m0) =
      (X.flatMap fun a => (W a).flatMap fun k => (List.range num).flatMap fun i => (L a k).map fun b =>
        (((k, key b, i) : ℕ × κ × ℕ), val b a i)).foldl (fun m e => addAt m e.1 e.2) m0 := by
    rw [List.foldl_flatMap]
    congr 1; funext r a
    rw [List.foldl_flatMap]
    congr 1; funext r k
    rw [List.foldl_flatMap]
    congr 1; funext r i
    rw [List.foldl_map]
  rw [h, foldl_addAt, sum_flatMap]
  congr 3
  funext a
  rw [sum_flatMap]
  congr 2
  funext k'
  rw [sum_flatMap]
  by_cases hk : k' = k
  · subst hk
    rw [if_pos rfl, ← sum_range_select num i hi
      (fun i => ((L a k').map fun b => if key b = c then val b a i else 0).sum)]
    congr 2
    funext i'
    rw [List.map_map]
    by_cases h : i' = i
    · subst h
      rw [if_pos rfl]
      congr 2; funext b
      simp [Function.comp]
    · rw [if_neg h]
      apply List.sum_eq_zero
      intro x hx
      obtain ⟨b, _, rfl⟩ := List.mem_map.1 hx
      simp [h]
  · rw [if_neg hk]
    apply List.sum_eq_zero
    intro x hx
    obtain ⟨i', _, rfl⟩ := List.mem_map.1 hx
    apply List.sum_eq_zero
    intro x hx
    rw [List.map_map] at hx
    obtain ⟨b, _, rfl⟩ := List.mem_map.1 hx
    simp [hk]

end FIAT
