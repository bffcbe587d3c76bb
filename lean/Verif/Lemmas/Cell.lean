/- Helper lemmas for `Verif.Props.Cell`. -/
import Verif.Model.Cell
import Verif.Lemmas.PyDict

namespace FIAT

theorem getD_foldl_appendAt {κ α : Type*} [DecidableEq κ] (ev : List (κ × α))
    (c : Dict κ (List α)) (k : κ) :
    ((ev.foldl (fun c p => c.appendAt p.1 [p.2]) c).get? k).getD [] =
      (c.get? k).getD [] ++ (ev.filter fun p => p.1 = k).map Prod.snd := by
  induction ev generalizing c with
  | nil => simp
  | cons p ev ih =>
    rw [List.foldl_cons, ih, Dict.getD_appendAt]
    by_cases h : p.1 = k
    · simp [h]
    · simp [h]

theorem mem_keys_foldl_appendAt {κ α : Type*} [DecidableEq κ] (ev : List (κ × α))
    (c : Dict κ (List α)) (k : κ) :
    k ∈ (ev.foldl (fun c p => c.appendAt p.1 [p.2]) c).keys ↔
      k ∈ c.keys ∨ ∃ p ∈ ev, p.1 = k := by
  induction ev generalizing c with
  | nil => simp
  | cons p ev ih =>
    rw [List.foldl_cons, ih, Dict.appendAt, Dict.mem_keys_put]
    simp only [List.mem_cons, exists_eq_or_imp]
    constructor
    · rintro ((h | h) | h)
      · exact Or.inr (Or.inl h.symm)
      · exact Or.inl h
      · exact Or.inr (Or.inr h)
    · rintro (h | h | h)
      · exact Or.inl (Or.inr h)
      · exact Or.inl (Or.inl h.symm)
      · exact Or.inr h

theorem filter_flatMap_key {κ α β : Type*} [DecidableEq κ] (d : Dict κ α) (hd : d.WF)
    (k : κ) (v : α) (hk : d.get? k = some v) (f : κ → α → List β) :
    d.flatMap (fun p => if p.1 = k then f p.1 p.2 else []) = f k v := by
  induction d with
  | nil => simp at hk
  | cons p d ih =>
    obtain ⟨k', v'⟩ := p
    have hd' := hd
    simp only [Dict.WF, Dict.keys, List.map_cons, List.nodup_cons] at hd
    rw [Dict.get?_cons] at hk
    rw [List.flatMap_cons]
    split_ifs at hk with h
    · subst h
      simp only [if_true]
      obtain rfl : v' = v := by simpa using hk
      have : d.flatMap (fun p => if p.1 = k' then f p.1 p.2 else []) = [] := by
        rw [List.flatMap_eq_nil_iff]
        intro p hp
        rw [if_neg]
        rintro rfl
        exact hd.1 (List.mem_map.mpr ⟨p, hp, rfl⟩)
      rw [this, List.append_nil]
    · rw [if_neg h, List.nil_append]
      exact ih hd.2 hk

end FIAT
