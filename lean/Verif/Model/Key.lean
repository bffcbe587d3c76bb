/-
Entity dimensions of FIAT cells: an `int` for simplices and flattened cubes, a (possibly nested) tuple
for tensor-product cells (FIAT/reference_element.py:105-156, 665-712).  Tuples are built from `nil`
and `cons`.  The order is Python's order on ints and tuples (lexicographic); an int compared with a
tuple is a `TypeError` in Python and never happens inside one topology, the model orders ints first.
-/
import Mathlib.Order.Defs.LinearOrder
import Mathlib.Order.RelClasses
import Mathlib.Algebra.Order.Ring.Nat

namespace FIAT

inductive Key where
  | int (n : ℕ)
  | nil
  | cons (hd tl : Key)
  deriving DecidableEq

namespace Key

/-- The Python tuple `(k₁, ..., kₙ)`. -/
def tup (l : List Key) : Key := l.foldr cons nil

/-- Python `<` (see the file header). -/
def lt : Key → Key → Prop
  | int m, int n => m < n
  | int _, _ => True
  | nil, cons _ _ => True
  | nil, _ => False
  | cons a b, cons c d => lt a c ∨ (a = c ∧ lt b d)
  | cons _ _, _ => False

instance decLt : (a b : Key) → Decidable (lt a b)
  | int m, int n => inferInstanceAs (Decidable (m < n))
  | int _, nil => isTrue trivial
  | int _, cons _ _ => isTrue trivial
  | nil, cons _ _ => isTrue trivial
  | nil, int _ => isFalse id
  | nil, nil => isFalse id
  | cons a b, cons c d =>
    have := decLt a c; have := decLt b d
    inferInstanceAs (Decidable (lt a c ∨ (a = c ∧ lt b d)))
  | cons _ _, int _ => isFalse id
  | cons _ _, nil => isFalse id

theorem lt_irrefl : ∀ a : Key, ¬ lt a a
  | int n => Nat.lt_irrefl n
  | nil => id
  | cons a b => by
    rintro (h | ⟨_, h⟩)
    · exact lt_irrefl a h
    · exact lt_irrefl b h

theorem lt_trans' : ∀ a b c : Key, lt a b → lt b c → lt a c
  | int _, int _, int _, h1, h2 => Nat.lt_trans h1 h2
  | int _, int _, nil, _, _ => trivial
  | int _, int _, cons _ _, _, _ => trivial
  | int _, nil, cons _ _, _, _ => trivial
  | int _, nil, int _, _, h2 => h2.elim
  | int _, nil, nil, _, _ => trivial
  | int _, cons _ _, int _, _, h2 => h2.elim
  | int _, cons _ _, nil, _, _ => trivial
  | int _, cons _ _, cons _ _, _, _ => trivial
  | nil, int _, _, h1, _ => h1.elim
  | nil, nil, _, h1, _ => h1.elim
  | nil, cons _ _, int _, _, h2 => h2.elim
  | nil, cons _ _, nil, _, h2 => h2.elim
  | nil, cons _ _, cons _ _, _, _ => trivial
  | cons _ _, int _, _, h1, _ => h1.elim
  | cons _ _, nil, _, h1, _ => h1.elim
  | cons _ _, cons _ _, int _, _, h2 => h2.elim
  | cons _ _, cons _ _, nil, _, h2 => h2.elim
  | cons a b, cons c d, cons e f, h1, h2 => by
    rcases h1 with h1 | ⟨rfl, h1⟩
    · rcases h2 with h2 | ⟨rfl, h2⟩
      · exact Or.inl (lt_trans' a c e h1 h2)
      · exact Or.inl h1
    · rcases h2 with h2 | ⟨rfl, h2⟩
      · exact Or.inl h2
      · exact Or.inr ⟨rfl, lt_trans' b d f h1 h2⟩

theorem lt_tri : ∀ a b : Key, lt a b ∨ a = b ∨ lt b a
  | int m, int n => by
    rcases Nat.lt_trichotomy m n with h | h | h
    · exact Or.inl h
    · exact Or.inr (Or.inl (by rw [h]))
    · exact Or.inr (Or.inr h)
  | int _, nil => Or.inl trivial
  | int _, cons _ _ => Or.inl trivial
  | nil, int _ => Or.inr (Or.inr trivial)
  | nil, nil => Or.inr (Or.inl rfl)
  | nil, cons _ _ => Or.inl trivial
  | cons _ _, int _ => Or.inr (Or.inr trivial)
  | cons _ _, nil => Or.inr (Or.inr trivial)
  | cons a b, cons c d => by
    rcases lt_tri a c with h | rfl | h
    · exact Or.inl (Or.inl h)
    · rcases lt_tri b d with h | rfl | h
      · exact Or.inl (Or.inr ⟨rfl, h⟩)
      · exact Or.inr (Or.inl rfl)
      · exact Or.inr (Or.inr (Or.inr ⟨rfl, h⟩))
    · exact Or.inr (Or.inr (Or.inl h))

instance : LinearOrder Key where
  le a b := a = b ∨ lt a b
  lt := lt
  le_refl a := Or.inl rfl
  le_trans a b c h1 h2 := by
    rcases h1 with rfl | h1
    · exact h2
    · rcases h2 with rfl | h2
      · exact Or.inr h1
      · exact Or.inr (lt_trans' _ _ _ h1 h2)
  lt_iff_le_not_ge a b := by
    constructor
    · intro h
      refine ⟨Or.inr h, ?_⟩
      rintro (rfl | h')
      · exact lt_irrefl _ h
      · exact lt_irrefl _ (lt_trans' _ _ _ h h')
    · rintro ⟨rfl | h, h2⟩
      · exact absurd (Or.inl rfl) h2
      · exact h
  le_antisymm a b h1 h2 := by
    rcases h1 with rfl | h1
    · rfl
    · rcases h2 with rfl | h2
      · rfl
      · exact absurd (lt_trans' _ _ _ h1 h2) (lt_irrefl _)
  le_total a b := by
    rcases lt_tri a b with h | h | h
    · exact Or.inl (Or.inr h)
    · exact Or.inl (Or.inl h)
    · exact Or.inr (Or.inr h)
  toDecidableLE a b := inferInstanceAs (Decidable (a = b ∨ lt a b))
  toDecidableEq := inferInstance
  toDecidableLT a b := decLt a b

theorem int_lt_int {m n : ℕ} : (int m : Key) < int n ↔ m < n := Iff.rfl
theorem cons_lt_cons {a b c d : Key} : cons a b < cons c d ↔ a < c ∨ (a = c ∧ b < d) := Iff.rfl

/-- `tuple_sum(tree)`, FIAT/reference_element.py:1017-1026. -/
def tupleSum : Key → ℕ
  | int n => n
  | nil => 0
  | cons a b => tupleSum a + tupleSum b

theorem tupleSum_tup (l : List Key) : tupleSum (tup l) = (l.map tupleSum).sum := by
  induction l with
  | nil => rfl
  | cons a l ih => simp [tup, tupleSum] at *; exact ih

theorem tup_injective : Function.Injective tup := by
  intro a
  induction a with
  | nil => intro b h; cases b with
    | nil => rfl
    | cons x b => simp [tup] at h
  | cons x a ih => intro b h; cases b with
    | nil => simp [tup] at h
    | cons y b =>
      have h' : Key.cons x (tup a) = Key.cons y (tup b) := h
      injection h' with h1 h2
      rw [h1, ih h2]

theorem tup_le_of_forall₂ {l l' : List Key} (h : List.Forall₂ (· ≤ ·) l l') : tup l ≤ tup l' := by
  induction h with
  | nil => exact le_rfl
  | @cons a b l l' hab _ ih =>
    show Key.cons a (tup l) = Key.cons b (tup l') ∨ lt _ _
    rcases hab with rfl | hab
    · rcases ih with ih | ih
      · left; rw [ih]
      · right; exact Or.inr ⟨rfl, ih⟩
    · right; exact Or.inl hab

end Key
end FIAT
