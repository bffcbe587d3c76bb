/-
C42 (cell equality) and C43 (`ufc_cell`).
-/
import Verif.Model.CellEq
import Mathlib.Data.List.Forall2
import Mathlib.Data.List.Infix

namespace FIAT
open CellObj

section
variable {α : Type}

/-! ### C42 -/

mutual
theorem pyEq_refl : ∀ a : CellObj α, pyEq a a = true
  | .mk c d l => by
    simp only [pyEq, decide_true, Bool.true_and]
    split
    · exact pyEqTuple_refl l
    · rfl
theorem pyEqTuple_refl : ∀ l : List (CellObj α), pyEqTuple l l = true
  | [] => rfl
  | a :: l => by simp only [pyEqTuple, pyEq_refl a, pyEqTuple_refl l, Bool.and_self]
end

mutual
theorem pyEq_symm : ∀ a b : CellObj α, pyEq a b = true → pyEq b a = true
  | .mk c d l, .mk c' d' l' => by
    simp only [pyEq, Bool.and_eq_true, decide_eq_true_eq]
    rintro ⟨rfl, h⟩
    refine ⟨rfl, ?_⟩
    split
    · rename_i hc; rw [if_pos hc] at h; exact pyEqTuple_symm l l' h
    · rfl
theorem pyEqTuple_symm : ∀ l l' : List (CellObj α), pyEqTuple l l' = true → pyEqTuple l' l = true
  | [], [] => fun _ => rfl
  | [], _ :: _ => by simp [pyEqTuple]
  | _ :: _, [] => by simp [pyEqTuple]
  | a :: l, b :: l' => by
    simp only [pyEqTuple, Bool.and_eq_true]
    exact fun h => ⟨pyEq_symm a b h.1, pyEqTuple_symm l l' h.2⟩
end

mutual
theorem pyEq_trans : ∀ a b c : CellObj α, pyEq a b = true → pyEq b c = true → pyEq a c = true
  | .mk c d l, .mk c' d' l', .mk c'' d'' l'' => by
    simp only [pyEq, Bool.and_eq_true, decide_eq_true_eq]
    rintro ⟨rfl, h⟩ ⟨rfl, h'⟩
    refine ⟨rfl, ?_⟩
    split
    · rename_i hc; rw [if_pos hc] at h h'; exact pyEqTuple_trans l l' l'' h h'
    · rfl
theorem pyEqTuple_trans : ∀ l l' l'' : List (CellObj α), pyEqTuple l l' = true → pyEqTuple l' l'' = true →
    pyEqTuple l l'' = true
  | [], [], _ => fun _ h => h
  | [], _ :: _, _ => by simp [pyEqTuple]
  | _ :: _, [], _ => by simp [pyEqTuple]
  | _ :: _, _ :: _, [] => by simp [pyEqTuple]
  | a :: l, b :: l', c :: l'' => by
    simp only [pyEqTuple, Bool.and_eq_true]
    exact fun h h' => ⟨pyEq_trans a b c h.1 h'.1, pyEqTuple_trans l l' l'' h.2 h'.2⟩
end

/-- C42: `==` is an equivalence relation on all cell objects. -/
theorem cell_eq_equivalence : Equivalence fun a b : CellObj α => pyEq a b = true :=
  ⟨pyEq_refl, fun {a b} => pyEq_symm a b, fun {a b c} => pyEq_trans a b c⟩

/-- C42: `!=` is the negation of `==`. -/
theorem cell_ne (a b : CellObj α) : pyNe a b = true ↔ ¬ pyEq a b = true := by
  simp [pyNe]

theorem pyEqTuple_iff (l l' : List (CellObj α)) :
    pyEqTuple l l' = true ↔ List.Forall₂ (fun a b => pyEq a b = true) l l' := by
  induction l generalizing l' with
  | nil => cases l' <;> simp [pyEqTuple]
  | cons a l ih => cases l' <;> simp [pyEqTuple, ih]

/-- C42: tensor-product cells are equal iff their factors are, one by one and equally many. -/
theorem cell_eq_tensor [Zero α] [One α] [Neg α] (l l' : List (CellObj α)) :
    pyEq (CellObj.tensor l) (CellObj.tensor l') = true ↔
      List.Forall₂ (fun a b => pyEq a b = true) l l' := by
  simp [CellObj.tensor, pyEq, pyEqTuple_iff]

/-- C42: cells of the other classes are equal iff their classes are. -/
theorem cell_eq_atom [Zero α] [One α] [Neg α] (c : CellClass) (hc : c ≠ .tensorProduct) (b : CellObj α) :
    pyEq (CellObj.new c) b = true ↔ b.cls = c := by
  obtain ⟨c', d, l⟩ := b
  simp only [CellObj.new, pyEq, if_neg hc, Bool.and_true, decide_eq_true_eq, CellObj.cls]
  exact eq_comm

mutual
theorem pyHash_eq (hT : CellClass → ℤ) (hN : ℤ) (hTup : List ℤ → ℤ) :
    ∀ a b : CellObj α, pyEq a b = true → pyHash hT hN hTup a = pyHash hT hN hTup b
  | .mk c d l, .mk c' d' l' => by
    simp only [pyEq, Bool.and_eq_true, decide_eq_true_eq]
    rintro ⟨rfl, h⟩
    simp only [pyHash]
    split
    · rename_i hc; rw [if_pos hc] at h; rw [pyHashes_eq hT hN hTup l l' h]
    · rfl
theorem pyHashes_eq (hT : CellClass → ℤ) (hN : ℤ) (hTup : List ℤ → ℤ) :
    ∀ l l' : List (CellObj α), pyEqTuple l l' = true → pyHashes hT hN hTup l = pyHashes hT hN hTup l'
  | [], [] => fun _ => rfl
  | [], _ :: _ => by simp [pyEqTuple]
  | _ :: _, [] => by simp [pyEqTuple]
  | a :: l, b :: l' => by
    simp only [pyEqTuple, Bool.and_eq_true, pyHashes]
    exact fun h => by rw [pyHash_eq hT hN hTup a b h.1, pyHashes_eq hT hN hTup l l' h.2]
end

/-- C42: equal cells have equal hashes, whatever Python's hash of types, `None` and tuples. -/
theorem cell_hash (hT : CellClass → ℤ) (hN : ℤ) (hTup : List ℤ → ℤ) (a b : CellObj α)
    (h : pyEq a b = true) : pyHash hT hN hTup a = pyHash hT hN hTup b := pyHash_eq hT hN hTup a b h

/-- C42: although `==` does not look at vertices and topology, equal cells built by the constructors have
the same vertices and the same topology. -/
theorem cell_eq_data [Zero α] [One α] [Neg α] (a : CellObj α) (ha : a.Built) :
    ∀ b : CellObj α, b.Built → pyEq a b = true → a.data = b.data := by
  induction ha with
  | new c hc =>
    intro b hb h
    rw [cell_eq_atom c hc] at h
    cases hb with
    | new c' hc' => simp only [CellObj.new, CellObj.cls] at h; rw [h]
    | tensor l hl => simp only [CellObj.tensor, CellObj.cls] at h; exact absurd h.symm hc
  | tensor l hl ih =>
    intro b hb h
    cases hb with
    | new c' hc' =>
      have := pyEq_symm _ _ h
      rw [cell_eq_atom c' hc'] at this
      exact absurd this.symm hc'
    | tensor l' hl' =>
      rw [cell_eq_tensor] at h
      have : l.map CellObj.data = l'.map CellObj.data := by
        clear hl
        induction h with
        | nil => rfl
        | @cons x y xs ys hxy _ ih2 =>
          rw [List.map_cons, List.map_cons, ih x (by simp) y (hl' y (by simp)) hxy,
            ih2 (fun c hc => ih c (by simp [hc])) (fun c hc => hl' c (by simp [hc]))]
      simp only [CellObj.tensor, CellObj.data, this]

/-! Non-vacuity: two separately built prisms are equal, a quadrilateral is not the product of two intervals
although both have the same vertices, and factor order matters. -/
example : pyEq (CellObj.tensor [.new .ufcTriangle, .new .ufcInterval] : CellObj ℤ)
    (CellObj.tensor [.new .ufcTriangle, .new .ufcInterval]) = true ∧
  pyEq (CellObj.tensor [.new .ufcTriangle, .new .ufcInterval] : CellObj ℤ)
    (CellObj.tensor [.new .ufcInterval, .new .ufcTriangle]) = false ∧
  pyEq (CellObj.tensor [.new .ufcInterval, .new .ufcInterval] : CellObj ℤ) (.new .ufcQuadrilateral) = false ∧
  (CellObj.tensor [.new .ufcInterval, .new .ufcInterval] : CellObj ℤ).data.verts =
    (CellObj.new .ufcQuadrilateral : CellObj ℤ).data.verts := by
  refine ⟨rfl, rfl, rfl, rfl⟩

/-! ### C43 -/

/-- The names `ufc_cell` knows and the class each stands for. -/
def ufcNames : List (List Char × CellClass) :=
  [(nmVertex, .point), (nmInterval, .ufcInterval), (nmTriangle, .ufcTriangle),
   (nmTetrahedron, .ufcTetrahedron), (nmQuadrilateral, .ufcQuadrilateral),
   (nmHexahedron, .ufcHexahedron)]

theorem splitStar_ne_nil (acc s : List Char) : splitStar acc s ≠ [] := by
  fun_induction splitStar acc s <;> simp_all

/-- `" * ".join(s.split(" * ")) == s`. -/
theorem splitStar_join (acc s : List Char) : starSep.intercalate (splitStar acc s) = acc ++ s := by
  fun_induction splitStar acc s with
  | case1 acc rest ih =>
    obtain ⟨x, l, hl⟩ := List.exists_cons_of_ne_nil (splitStar_ne_nil [] rest)
    rw [hl] at ih ⊢
    rw [List.intercalate_cons_cons, ih]
    simp [starSep]
  | case2 acc c cs _ ih => rw [ih]; simp
  | case3 acc => simp

private theorem splitStar_plain (p acc : List Char) (hp : ' ' ∉ p) : splitStar acc p = [acc ++ p] := by
  induction p generalizing acc with
  | nil => simp [splitStar]
  | cons c p ih =>
    rw [splitStar.eq_2 _ _ _ (by rintro rest rfl rfl; simp at hp), ih _ (by simp_all)]
    simp

private theorem splitStar_step (p acc rest : List Char) (hp : ' ' ∉ p) :
    splitStar acc (p ++ (starSep ++ rest)) = (acc ++ p) :: splitStar [] rest := by
  induction p generalizing acc with
  | nil => simp [starSep, splitStar]
  | cons c p ih =>
    rw [List.cons_append, splitStar.eq_2 _ _ _ (by rintro rest h _; simp_all), ih _ (by simp_all)]
    simp

/-- Splitting a joined list of space-free names gives the names back. -/
theorem splitStar_names (l : List (List Char)) (hl : l ≠ []) (h : ∀ p ∈ l, ' ' ∉ p) :
    splitStar [] (starSep.intercalate l) = l := by
  induction l with
  | nil => exact absurd rfl hl
  | cons p l ih =>
    cases l with
    | nil => simpa using splitStar_plain p [] (h p (by simp))
    | cons q l =>
      rw [List.intercalate_cons_cons, List.append_assoc, splitStar_step _ _ _ (h p (by simp)), ih (by simp)
        (fun x hx => h x (by simp [hx]))]
      simp

/-- No piece contains the separator. -/
theorem splitStar_no_sep (acc s : List Char)
    (inv : ∀ u v, acc ++ s = u ++ (starSep ++ v) → acc.length ≤ u.length) :
    ∀ p ∈ splitStar acc s, ¬ starSep <:+: p := by
  have hacc : ∀ acc s : List Char, (∀ u v, acc ++ s = u ++ (starSep ++ v) → acc.length ≤ u.length) →
      ¬ starSep <:+: acc := by
    rintro acc s inv ⟨u, v, huv⟩
    have := inv u (v ++ s) (by rw [← huv]; simp)
    rw [← huv] at this
    simp [starSep] at this
  fun_induction splitStar acc s with
  | case1 acc rest ih =>
    intro p hp
    rcases List.mem_cons.1 hp with rfl | hp
    · exact hacc _ _ inv
    · exact ih (by simp) p hp
  | case2 acc c cs hne ih =>
    refine ih ?_
    intro u v h
    have h' : acc ++ c :: cs = u ++ (starSep ++ v) := by simpa using h
    have hle := inv u v h'
    rcases hle.lt_or_eq with hlt | heq
    · simp; omega
    · obtain ⟨_, h2⟩ := List.append_inj h' heq
      simp only [starSep, List.cons_append, List.nil_append] at h2
      injection h2 with h2 h3
      exact (hne _ h2 h3).elim
  | case3 acc =>
    intro p hp
    rw [List.mem_singleton] at hp; subst hp
    exact hacc _ _ inv

theorem starSep_infix_length {s : List Char} : starSep <:+: s ↔ 2 ≤ (splitStar [] s).length := by
  constructor
  · intro h
    by_contra hlt
    obtain ⟨x, l, hl⟩ := List.exists_cons_of_ne_nil (splitStar_ne_nil [] s)
    rw [hl] at hlt
    have : l = [] := by cases l; rfl; simp at hlt
    subst this
    have hj := splitStar_join [] s
    rw [hl] at hj
    simp at hj
    refine splitStar_no_sep [] s (by simp) x (by simp [hl]) (hj ▸ h)
  · intro h
    have hj := splitStar_join [] s
    match hl : splitStar [] s, h with
    | a :: b :: l, _ =>
      rw [hl, List.intercalate_cons_cons] at hj
      exact ⟨a, starSep.intercalate (b :: l), by simpa using hj⟩

section factory
variable [Zero α] [One α] [Neg α]

theorem ufcAtom_iff (s : List Char) (c : CellObj α) :
    ufcAtom s = some c ↔ ∃ k, (s, k) ∈ ufcNames ∧ c = .new k := by
  unfold ufcAtom
  constructor
  · intro h
    split_ifs at h with h1 h2 h3 h4 h5 h6 <;>
      (simp only [ufcSimplex, Option.some.injEq] at h; subst h)
    · exact ⟨.ufcQuadrilateral, by simp [ufcNames, h1], rfl⟩
    · exact ⟨.ufcHexahedron, by simp [ufcNames, h2], rfl⟩
    · exact ⟨.point, by simp [ufcNames, h3], rfl⟩
    · exact ⟨.ufcInterval, by simp [ufcNames, h4], rfl⟩
    · exact ⟨.ufcTriangle, by simp [ufcNames, h5], rfl⟩
    · exact ⟨.ufcTetrahedron, by simp [ufcNames, h6], rfl⟩
  · rintro ⟨k, hk, rfl⟩
    simp only [ufcNames, List.mem_cons, Prod.mk.injEq, List.not_mem_nil, or_false] at hk
    rcases hk with ⟨rfl, rfl⟩ | ⟨rfl, rfl⟩ | ⟨rfl, rfl⟩ | ⟨rfl, rfl⟩ | ⟨rfl, rfl⟩ | ⟨rfl, rfl⟩ <;> rfl

private theorem ufcNames_no_space (s : List Char) (k : CellClass) (h : (s, k) ∈ ufcNames) : ' ' ∉ s := by
  simp only [ufcNames, List.mem_cons, Prod.mk.injEq, List.not_mem_nil, or_false] at h
  rcases h with ⟨rfl, rfl⟩ | ⟨rfl, rfl⟩ | ⟨rfl, rfl⟩ | ⟨rfl, rfl⟩ | ⟨rfl, rfl⟩ | ⟨rfl, rfl⟩ <;> decide

private theorem not_sep_of_no_space (s : List Char) (h : ' ' ∉ s) : ¬ starSep <:+: s := by
  rintro ⟨u, v, rfl⟩
  simp [starSep] at h

theorem ufcCellFuel_two (n : ℕ) (s : List Char) :
    (ufcCellFuel (n + 2) s : Option (CellObj α)) =
      if starSep <:+: s then ((splitStar [] s).mapM ufcAtom).map CellObj.tensor else ufcAtom s := by
  rw [ufcCellFuel]
  split
  · congr 1
    have hno := splitStar_no_sep [] s (by simp)
    generalize splitStar [] s = l at hno
    induction l with
    | nil => rfl
    | cons p l ih =>
      have hp : (ufcCellFuel (n + 1) p : Option (CellObj α)) = ufcAtom p := by
        rw [ufcCellFuel, if_neg (hno p (by simp))]
      rw [List.mapM_cons, List.mapM_cons, hp, ih (fun x hx => hno x (by simp [hx]))]
  · rfl

/-- The recursion of `ufc_cell` has depth at most two: more fuel changes nothing. -/
theorem ufcCellFuel_stable (n : ℕ) (hn : 2 ≤ n) (s : List Char) :
    (ufcCellFuel n s : Option (CellObj α)) = ufcCell s := by
  obtain ⟨m, rfl⟩ : ∃ m, n = m + 2 := ⟨n - 2, by omega⟩
  rw [ufcCell, ufcCellFuel_two, ufcCellFuel_two]

private theorem mapM_ufcAtom (l : List (List Char)) (cs : List (CellObj α)) :
    l.mapM ufcAtom = some cs ↔
      ∃ ks : List CellClass, List.Forall₂ (fun s k => (s, k) ∈ ufcNames) l ks ∧ cs = ks.map .new := by
  induction l generalizing cs with
  | nil => simp [eq_comm]
  | cons s l ih =>
    rw [List.mapM_cons]
    constructor
    · intro h
      simp only [Option.bind_eq_bind, Option.bind_eq_some_iff, Option.pure_def, Option.some.injEq] at h
      obtain ⟨c, hc, cs', hcs', rfl⟩ := h
      obtain ⟨k, hk, rfl⟩ := (ufcAtom_iff s c).1 hc
      obtain ⟨ks, hks, rfl⟩ := (ih cs').1 hcs'
      exact ⟨k :: ks, .cons hk hks, rfl⟩
    · rintro ⟨ks, hks, rfl⟩
      cases hks with
      | @cons _ k _ ks hk hks =>
        rw [(ufcAtom_iff s (.new k)).2 ⟨k, hk, rfl⟩, (ih _).2 ⟨ks, hks, rfl⟩]
        rfl

/-- C43: `ufc_cell(s)` succeeds exactly when `s` is one of the six names, or at least two names joined by
`" * "`; it returns the named cell, resp. the tensor product of the named cells in order. -/
theorem ufc_cell_iff (s : List Char) (c : CellObj α) :
    ufcCell s = some c ↔
      (∃ k, (s, k) ∈ ufcNames ∧ c = .new k) ∨
      (∃ (names : List (List Char)) (ks : List CellClass), 2 ≤ names.length ∧
        List.Forall₂ (fun n k => (n, k) ∈ ufcNames) names ks ∧
        s = starSep.intercalate names ∧ c = .tensor (ks.map .new)) := by
  rw [ufcCell, ufcCellFuel_two]
  split
  · rename_i hs
    constructor
    · intro h
      obtain ⟨cs, hcs, rfl⟩ := Option.map_eq_some_iff.1 h
      obtain ⟨ks, hks, rfl⟩ := (mapM_ufcAtom _ _).1 hcs
      exact .inr ⟨splitStar [] s, ks, starSep_infix_length.1 hs, hks, by simp [splitStar_join], rfl⟩
    · rintro (⟨k, hk, rfl⟩ | ⟨names, ks, hlen, hks, rfl, rfl⟩)
      · exact absurd hs (not_sep_of_no_space s (ufcNames_no_space s k hk))
      · have hsp : ∀ p ∈ names, ' ' ∉ p := by
          intro p hp
          obtain ⟨i, hi, rfl⟩ := List.getElem_of_mem hp
          exact ufcNames_no_space _ _ (List.Forall₂.get hks hi (by rw [← hks.length_eq]; exact hi))
        rw [splitStar_names names (by rintro rfl; simp at hlen) hsp,
          (mapM_ufcAtom _ _).2 ⟨ks, hks, rfl⟩]
        rfl
  · rename_i hs
    rw [ufcAtom_iff]
    constructor
    · exact .inl
    · rintro (h | ⟨names, ks, hlen, hks, rfl, rfl⟩)
      · exact h
      · exfalso
        apply hs
        match names, hlen with
        | a :: b :: l, _ =>
          rw [List.intercalate_cons_cons]
          exact ⟨a, starSep.intercalate (b :: l), by simp⟩

/-- C43: what `ufc_cell` returns is a cell built by the constructors. -/
theorem ufc_cell_built (s : List Char) (c : CellObj α) (h : ufcCell s = some c) : c.Built := by
  have key : ∀ n k, (n, k) ∈ ufcNames → (CellObj.new k : CellObj α).Built := by
    intro n k hk
    refine .new k ?_
    rintro rfl
    simp [ufcNames] at hk
  rcases (ufc_cell_iff s c).1 h with ⟨k, hk, rfl⟩ | ⟨names, ks, _, hks, _, rfl⟩
  · exact key s k hk
  · refine .tensor _ fun c hc => ?_
    obtain ⟨k, hk, rfl⟩ := List.mem_map.1 hc
    obtain ⟨i, hi, rfl⟩ := List.getElem_of_mem hk
    exact key _ _ (List.Forall₂.get hks (by rw [hks.length_eq]; exact hi) hi)

/-! Non-vacuity: one accepted string of each kind, and rejected ones. -/
example : (ufcCell (nmTriangle ++ starSep ++ nmInterval) : Option (CellObj ℤ)) =
      some (.tensor [.new .ufcTriangle, .new .ufcInterval]) ∧
    (ufcCell nmHexahedron : Option (CellObj ℤ)) = some (.new .ufcHexahedron) :=
  ⟨(ufc_cell_iff _ _).2 (.inr ⟨[nmTriangle, nmInterval], [.ufcTriangle, .ufcInterval], le_rfl,
      .cons (by simp [ufcNames]) (.cons (by simp [ufcNames]) .nil), by decide, rfl⟩),
   (ufc_cell_iff _ _).2 (.inl ⟨.ufcHexahedron, by simp [ufcNames], rfl⟩)⟩

example : (ufcCell (nmTriangle ++ ['*'] ++ nmInterval) : Option (CellObj ℤ)).isNone = true ∧
    (ufcCell (nmTriangle ++ starSep) : Option (CellObj ℤ)).isNone = true ∧
    (ufcCell ['p', 'r', 'i', 's', 'm'] : Option (CellObj ℤ)).isNone = true := by
  refine ⟨rfl, rfl, rfl⟩

end factory
end
end FIAT
