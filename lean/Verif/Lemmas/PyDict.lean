/- Helper lemmas about dictionaries and sorting. -/
import Verif.Model.PyDict
import Mathlib.Data.List.Nodup

namespace FIAT
namespace Dict
variable {κ α β : Type*} [DecidableEq κ]

@[simp] theorem get?_nil (k : κ) : get? ([] : Dict κ α) k = none := rfl

theorem get?_cons (k' : κ) (v : α) (d : Dict κ α) (k : κ) :
    get? ((k', v) :: d) k = if k' = k then some v else get? d k := rfl

theorem mem_of_get? {d : Dict κ α} {k : κ} {v : α} (h : d.get? k = some v) : (k, v) ∈ d := by
  induction d with
  | nil => simp at h
  | cons p d ih =>
    obtain ⟨k', v'⟩ := p
    rw [get?_cons] at h
    split_ifs at h with hk
    · simp_all
    · exact List.mem_cons_of_mem _ (ih h)

theorem get?_eq_none_iff {d : Dict κ α} {k : κ} : d.get? k = none ↔ k ∉ d.keys := by
  induction d with
  | nil => simp [keys]
  | cons p d ih =>
    obtain ⟨k', v'⟩ := p
    rw [get?_cons]
    split_ifs with hk
    · simp [keys, hk]
    · simp only [keys, List.map_cons, List.mem_cons, not_or] at ih ⊢
      rw [ih]; constructor
      · intro h; exact ⟨fun e => hk e.symm, h⟩
      · exact fun h => h.2

theorem get?_isSome_iff {d : Dict κ α} {k : κ} : (d.get? k).isSome ↔ k ∈ d.keys := by
  rw [← not_iff_not, ← get?_eq_none_iff]; simp

theorem get?_of_mem {d : Dict κ α} (hd : d.WF) {k : κ} {v : α} (h : (k, v) ∈ d) :
    d.get? k = some v := by
  induction d with
  | nil => simp at h
  | cons p d ih =>
    obtain ⟨k', v'⟩ := p
    simp only [WF, keys, List.map_cons, List.nodup_cons] at hd
    rw [get?_cons]
    rcases List.mem_cons.mp h with h | h
    · simp_all
    · have : k ∈ d.map Prod.fst := List.mem_map.mpr ⟨_, h, rfl⟩
      rw [if_neg (by rintro rfl; exact hd.1 this)]
      exact ih hd.2 h

theorem get?_iff_mem {d : Dict κ α} (hd : d.WF) {k : κ} {v : α} :
    d.get? k = some v ↔ (k, v) ∈ d := ⟨mem_of_get?, get?_of_mem hd⟩

@[simp] theorem get?_put_self (d : Dict κ α) (k : κ) (v : α) : (d.put k v).get? k = some v := by
  induction d with
  | nil => simp [put, get?_cons]
  | cons p d ih =>
    obtain ⟨k', v'⟩ := p
    simp only [put]
    split_ifs with hk
    · simp [get?_cons, hk]
    · simp [get?_cons, hk, ih]

theorem get?_put_ne (d : Dict κ α) {k k₂ : κ} (v : α) (h : k ≠ k₂) :
    (d.put k v).get? k₂ = d.get? k₂ := by
  induction d with
  | nil => simp [put, get?_cons, h]
  | cons p d ih =>
    obtain ⟨k', v'⟩ := p
    simp only [put]
    split_ifs with hk
    · subst hk; simp [get?_cons, h]
    · simp [get?_cons, ih]

theorem get?_put (d : Dict κ α) (k k₂ : κ) (v : α) :
    (d.put k v).get? k₂ = if k = k₂ then some v else d.get? k₂ := by
  split_ifs with h
  · subst h; simp
  · exact get?_put_ne d v h

theorem mem_keys_put (d : Dict κ α) (k k₂ : κ) (v : α) :
    k₂ ∈ (d.put k v).keys ↔ k₂ = k ∨ k₂ ∈ d.keys := by
  rw [← get?_isSome_iff, ← get?_isSome_iff, get?_put]
  split_ifs with h
  · simp [h]
  · simp [Ne.symm h]

theorem put_of_not_mem (d : Dict κ α) (k : κ) (v : α) (h : k ∉ d.keys) :
    d.put k v = d ++ [(k, v)] := by
  induction d with
  | nil => rfl
  | cons p d ih =>
    obtain ⟨k', v'⟩ := p
    simp only [keys, List.map_cons, List.mem_cons, not_or] at h
    simp only [put, if_neg (Ne.symm h.1), List.cons_append, ih h.2]

theorem WF.put {d : Dict κ α} (hd : d.WF) (k : κ) (v : α) : (d.put k v).WF := by
  induction d with
  | nil => simp [WF, keys, Dict.put]
  | cons p d ih =>
    obtain ⟨k', v'⟩ := p
    have hd' := hd
    simp only [WF, keys, List.map_cons, List.nodup_cons] at hd
    simp only [Dict.put]
    split_ifs with hk
    · exact hd'
    · simp only [WF, keys, List.map_cons, List.nodup_cons]
      refine ⟨fun h => ?_, ih hd.2⟩
      have := (mem_keys_put d k k' v).1 h
      rcases this with h | h
      · exact hk h
      · exact hd.1 h

theorem get?_map (d : Dict κ α) (f : κ → α → β) (k : κ) :
    get? (d.map fun p => (p.1, f p.1 p.2)) k = (d.get? k).map (f k) := by
  induction d with
  | nil => rfl
  | cons p d ih =>
    obtain ⟨k', v'⟩ := p
    simp only [List.map_cons, get?_cons]
    split_ifs with h
    · subst h; rfl
    · exact ih

omit [DecidableEq κ] in
theorem keys_map (d : Dict κ α) (f : κ → α → β) :
    keys (d.map fun p => (p.1, f p.1 p.2)) = d.keys := by
  simp [keys, List.map_map, Function.comp_def]

theorem get?_appendAt (d : Dict κ (List α)) (k k₂ : κ) (xs : List α) :
    (d.appendAt k xs).get? k₂ =
      if k = k₂ then some ((d.get? k).getD [] ++ xs) else d.get? k₂ := get?_put _ _ _ _

theorem getD_appendAt (d : Dict κ (List α)) (k k₂ : κ) (xs : List α) :
    ((d.appendAt k xs).get? k₂).getD [] =
      if k = k₂ then (d.get? k₂).getD [] ++ xs else (d.get? k₂).getD [] := by
  rw [get?_appendAt]; split_ifs with h
  · subst h; rfl
  · rfl

end Dict

section sorting
variable {α κ : Type*}

theorem mem_pySorted [LinearOrder α] {l : List α} {x : α} : x ∈ pySorted l ↔ x ∈ l :=
  List.mem_insertionSort _

theorem pySorted_perm [LinearOrder α] (l : List α) : (pySorted l).Perm l :=
  List.perm_insertionSort _ l

theorem pySorted_pairwise [LinearOrder α] (l : List α) : (pySorted l).Pairwise (· ≤ ·) :=
  List.pairwise_insertionSort _ l

theorem pySorted_pairwise_lt [LinearOrder α] {l : List α} (h : l.Nodup) :
    (pySorted l).Pairwise (· < ·) := by
  have h1 := pySorted_pairwise l
  have h2 : (pySorted l).Nodup := (pySorted_perm l).nodup_iff.mpr h
  exact (h1.and h2).imp fun h => lt_of_le_of_ne h.1 h.2

theorem sortedItems_perm [LinearOrder κ] (d : Dict κ α) : (sortedItems d).Perm d :=
  List.perm_insertionSort _ d

theorem mem_sortedItems [LinearOrder κ] {d : Dict κ α} {x : κ × α} :
    x ∈ sortedItems d ↔ x ∈ d := (sortedItems_perm d).mem_iff

theorem sortedItems_pairwise [LinearOrder κ] (d : Dict κ α) :
    (sortedItems d).Pairwise (fun a b => a.1 ≤ b.1) := by
  have : Std.Total (fun a b : κ × α => a.1 ≤ b.1) := ⟨fun a b => le_total a.1 b.1⟩
  have : IsTrans (κ × α) (fun a b : κ × α => a.1 ≤ b.1) := ⟨fun a b c h1 h2 => le_trans h1 h2⟩
  exact List.pairwise_insertionSort _ d

theorem sortedItems_wf [LinearOrder κ] {d : Dict κ α} (h : d.WF) : Dict.WF (sortedItems d) :=
  ((sortedItems_perm d).map Prod.fst).nodup_iff.mpr h

theorem sortedItems_pairwise_lt [LinearOrder κ] {d : Dict κ α} (h : d.WF) :
    (sortedItems d).Pairwise (fun a b => a.1 < b.1) := by
  have h2 : ((sortedItems d).map Prod.fst).Nodup := sortedItems_wf h
  rw [List.Nodup, List.pairwise_map] at h2
  exact ((sortedItems_pairwise d).and h2).imp fun h => lt_of_le_of_ne h.1 h.2

end sorting
end FIAT
