/- Helper lemmas: `itertools.product`, `ravel_multi_index`, `dict(enumerate(..))`. -/
import Verif.Model.TensorCell
import Verif.Lemmas.PyDict
import Mathlib.Algebra.BigOperators.Group.List.Basic
import Mathlib.Data.List.Forall2
import Mathlib.Tactic.Linarith
import Mathlib.Tactic.Ring

namespace FIAT

variable {β γ : Type*}

theorem mem_pyProduct {ls : List (List β)} {xs : List β} :
    xs ∈ pyProduct ls ↔ List.Forall₂ (· ∈ ·) xs ls := by
  induction ls generalizing xs with
  | nil => simp [pyProduct]
  | cons l ls ih =>
    simp only [pyProduct, List.mem_flatMap, List.mem_map]
    constructor
    · rintro ⟨x, hx, ys, hys, rfl⟩
      exact List.Forall₂.cons hx (ih.1 hys)
    · intro h
      cases h with
      | cons h1 h2 => exact ⟨_, h1, _, ih.2 h2, rfl⟩

theorem length_pyProduct (ls : List (List β)) :
    (pyProduct ls).length = (ls.map List.length).prod := by
  induction ls with
  | nil => rfl
  | cons l ls ih => simp [pyProduct, List.length_flatMap, ih]

theorem getElem?_flatMap_const (l : List β) (f : β → List γ) (n : ℕ)
    (hf : ∀ x ∈ l, (f x).length = n) (i j : ℕ) (hj : j < n) :
    (l.flatMap f)[i * n + j]? = (l[i]?).bind fun x => (f x)[j]? := by
  induction l generalizing i with
  | nil => simp
  | cons x l ih =>
    have hx := hf x (by simp)
    rw [List.flatMap_cons]
    cases i with
    | zero => simp [List.getElem?_append_left, hx, hj]
    | succ i =>
      rw [List.getElem?_append_right (by rw [hx]; nlinarith), hx,
        show (i + 1) * n + j - n = i * n + j by
          rw [Nat.add_mul, Nat.one_mul]; omega]
      simpa using ih (fun y hy => hf y (by simp [hy])) i

theorem ravel_lt {is ss : List ℕ} (h : List.Forall₂ (· < ·) is ss) : ravel is ss < ss.prod := by
  induction h with
  | nil => simp [ravel]
  | @cons i s is ss his _ ih =>
    simp only [ravel, List.prod_cons]
    have : (i + 1) * ss.prod ≤ s * ss.prod := Nat.mul_le_mul_right _ his
    nlinarith

theorem ravel_injective {is js ss : List ℕ} (hi : List.Forall₂ (· < ·) is ss)
    (hj : List.Forall₂ (· < ·) js ss) (h : ravel is ss = ravel js ss) : is = js := by
  induction hi generalizing js with
  | nil => cases hj; rfl
  | @cons i s is ss his hiss ih =>
    cases hj with
    | @cons j _ js _ hjs hjss =>
      simp only [ravel] at h
      have h1 := ravel_lt hiss
      have h2 := ravel_lt hjss
      have hij : i = j := by
        rcases Nat.lt_trichotomy i j with hlt | he | hlt
        · have : (i + 1) * ss.prod ≤ j * ss.prod := Nat.mul_le_mul_right _ hlt
          nlinarith
        · exact he
        · have : (j + 1) * ss.prod ≤ i * ss.prod := Nat.mul_le_mul_right _ hlt
          nlinarith
      subst hij
      rw [ih hjss (by omega)]

theorem unravel_spec {n : ℕ} {ss : List ℕ} (h : n < ss.prod) :
    List.Forall₂ (· < ·) (unravel n ss) ss ∧ ravel (unravel n ss) ss = n := by
  induction ss generalizing n with
  | nil => simp at h; subst h; exact ⟨.nil, rfl⟩
  | cons s ss ih =>
    rw [List.prod_cons] at h
    have hpos : 0 < ss.prod := by
      rcases Nat.eq_zero_or_pos ss.prod with h0 | h0
      · rw [h0] at h; omega
      · exact h0
    obtain ⟨h1, h2⟩ := ih (Nat.mod_lt n hpos)
    refine ⟨List.Forall₂.cons ?_ h1, ?_⟩
    · exact Nat.div_lt_of_lt_mul (by rw [Nat.mul_comm]; exact h)
    · simp only [unravel, ravel, h2]
      exact Nat.div_add_mod' n ss.prod

theorem unravel_ravel {is ss : List ℕ} (h : List.Forall₂ (· < ·) is ss) :
    unravel (ravel is ss) ss = is := by
  obtain ⟨h1, h2⟩ := unravel_spec (ravel_lt h)
  exact ravel_injective h1 h h2

theorem getElem?_pyProduct {ps : List (ℕ × β)} {ls : List (List β)}
    (h : List.Forall₂ (fun (p : ℕ × β) (l : List β) => l[p.1]? = some p.2) ps ls) :
    (pyProduct ls)[ravel (ps.map Prod.fst) (ls.map List.length)]? = some (ps.map Prod.snd) := by
  induction h with
  | nil => rfl
  | @cons p l ps ls hp hps ih =>
    simp only [pyProduct, List.map_cons, ravel]
    have hlt : ravel (ps.map Prod.fst) (ls.map List.length) < (ls.map List.length).prod := by
      apply ravel_lt
      rw [List.forall₂_map_left_iff, List.forall₂_map_right_iff]
      exact hps.imp fun a b hab => by
        obtain ⟨h1, _⟩ := List.getElem?_eq_some_iff.1 hab
        exact h1
    rw [getElem?_flatMap_const _ _ (ls.map List.length).prod
      (fun x _ => by rw [List.length_map, length_pyProduct]) _ _ hlt, hp]
    simp [ih]

theorem pyProduct_sorted {ls : List (List ℕ)} (h : ∀ l ∈ ls, l.Pairwise (· < ·)) :
    (pyProduct ls).Pairwise (· < ·) := by
  induction ls with
  | nil => simp [pyProduct]
  | cons l ls ih =>
    simp only [pyProduct]
    rw [List.pairwise_flatMap]
    refine ⟨fun a _ => ?_, ?_⟩
    · rw [List.pairwise_map]
      exact (ih fun l hl => h l (by simp [hl])).imp fun h => List.Lex.cons h
    · refine (h l (by simp)).imp ?_
      intro a b hab x hx y hy
      simp only [List.mem_map] at hx hy
      obtain ⟨x', _, rfl⟩ := hx
      obtain ⟨y', _, rfl⟩ := hy
      exact List.Lex.rel hab

theorem pyProduct_nodup {ls : List (List β)} (h : ∀ l ∈ ls, l.Nodup) : (pyProduct ls).Nodup := by
  induction ls with
  | nil => simp [pyProduct]
  | cons l ls ih =>
    simp only [pyProduct]
    rw [List.nodup_flatMap]
    refine ⟨fun a _ => (ih fun l hl => h l (by simp [hl])).map fun x y h => by simpa using h, ?_⟩
    refine (h l (by simp)).imp ?_
    intro a b hab x hx hy
    simp only [List.mem_map] at hx hy
    obtain ⟨x', _, rfl⟩ := hx
    obtain ⟨y', _, hy⟩ := hy
    simp at hy
    exact hab hy.1.symm

/-! dict(enumerate(..)) -/

theorem get?_enumDict (l : List β) (i : ℕ) : (enumDict l).get? i = l[i]? := by
  have key : ∀ (l : List β) (k : ℕ),
      Dict.get? ((l.zipIdx k).map fun p => (p.2, p.1)) i = if k ≤ i then l[i - k]? else none := by
    intro l
    induction l with
    | nil => intro k; simp
    | cons x l ih =>
      intro k
      simp only [List.zipIdx_cons, List.map_cons, Dict.get?_cons, ih]
      by_cases h : k = i
      · subst h; simp
      · rw [if_neg h]
        by_cases h2 : k + 1 ≤ i
        · rw [if_pos h2, if_pos (by omega), show i - k = (i - (k + 1)) + 1 by omega]
          rfl
        · rw [if_neg h2, if_neg (by omega)]
  have := key l 0
  simpa [enumDict] using this

theorem keys_enumDict (l : List β) : (enumDict l).keys = List.range l.length := by
  simp only [enumDict, Dict.keys, List.map_map]
  have : (Prod.fst ∘ fun p : β × ℕ => (p.2, p.1)) = Prod.snd := rfl
  rw [this, List.zipIdx_map_snd, List.range_eq_range']

theorem enumDict_wf (l : List β) : (enumDict l).WF := by
  rw [Dict.WF, keys_enumDict]; exact List.nodup_range

theorem length_enumDict (l : List β) : List.length (enumDict l) = l.length := by
  simp [enumDict]

theorem pySorted_of_pairwise {α : Type*} [LinearOrder α] {l : List α} (h : l.Pairwise (· ≤ ·)) :
    pySorted l = l := List.Pairwise.insertionSort_eq h

theorem sortedItems_of_pairwise {κ α : Type*} [LinearOrder κ] {d : Dict κ α}
    (h : d.Pairwise (fun a b => a.1 ≤ b.1)) : sortedItems d = d := List.Pairwise.insertionSort_eq h

theorem foldl_put_eq_map {κ α : Type*} [DecidableEq κ] (l : List κ) (f : κ → α)
    (d : Dict κ α) (h : l.Nodup) (hd : ∀ k ∈ l, k ∉ d.keys) :
    l.foldl (fun d k => d.put k (f k)) d = d ++ l.map fun k => (k, f k) := by
  induction l generalizing d with
  | nil => simp
  | cons k l ih =>
    rw [List.foldl_cons, Dict.put_of_not_mem d k _ (hd k (by simp)), ih]
    · simp
    · exact (List.nodup_cons.1 h).2
    · intro k' hk' hmem
      simp only [Dict.keys, List.map_append, List.map_cons, List.map_nil, List.mem_append,
        List.mem_singleton] at hmem
      rcases hmem with hmem | hmem
      · exact hd k' (by simp [hk']) hmem
      · subst hmem; exact (List.nodup_cons.1 h).1 hk'

theorem productEntities_eq (shape : List ℕ) (topds : List (Dict ℕ (List ℕ)))
    (hwf : ∀ t ∈ topds, Dict.WF t) :
    productEntities shape topds =
      enumDict ((pyProduct (topds.map fun topd => pySorted topd.keys)).map fun ei =>
        (pyProduct (List.zipWith (fun (topd : Dict ℕ (List ℕ)) e => (topd.get? e).getD []) topds ei)).map
          fun vs => ravel vs shape) := by
  have hs : (pyProduct (topds.map fun topd => pySorted topd.keys)).Pairwise (· < ·) := by
    apply pyProduct_sorted
    intro l hl
    obtain ⟨t, ht, rfl⟩ := List.mem_map.1 hl
    exact pySorted_pairwise_lt (hwf t ht)
  have hnd : (pyProduct (topds.map fun topd => pySorted topd.keys)).Nodup :=
    hs.imp fun h => h.ne
  unfold productEntities
  simp only
  rw [foldl_put_eq_map _ _ _ hnd (by simp [Dict.keys])]
  simp only [List.nil_append]
  rw [sortedItems_of_pairwise]
  · rw [List.map_map]; rfl
  · rw [List.pairwise_map]
    exact hs.imp fun h => h.le

end FIAT

namespace FIAT

theorem foldl_put_pairs {ι κ α : Type*} [DecidableEq κ] (l : List ι) (k : ι → κ) (f : ι → α)
    (d : Dict κ α) (h : (l.map k).Nodup) (hd : ∀ i ∈ l, k i ∉ d.keys) :
    l.foldl (fun d i => d.put (k i) (f i)) d = d ++ l.map fun i => (k i, f i) := by
  induction l generalizing d with
  | nil => simp
  | cons i l ih =>
    rw [List.map_cons, List.nodup_cons] at h
    rw [List.foldl_cons, Dict.put_of_not_mem d _ _ (hd i (by simp)), ih]
    · simp
    · exact h.2
    · intro j hj hmem
      simp only [Dict.keys, List.map_append, List.map_cons, List.map_nil, List.mem_append,
        List.mem_singleton] at hmem
      rcases hmem with hmem | hmem
      · exact hd j (by simp [hj]) hmem
      · exact h.1 (hmem ▸ List.mem_map.2 ⟨j, hj, rfl⟩)

end FIAT
