/-
C40: vector- and tensor-valued orthonormal polynomial sets.
-/
import Verif.Model.FunctionalClasses
import Verif.Props.Combinat
import Mathlib.Order.Interval.Finset.Nat
import Mathlib.Algebra.BigOperators.Intervals

namespace FIAT
variable {K : Type} [Field K]

private theorem inner_loop (f : (ℕ × List ℕ × ℕ → K) × ℕ → ℕ → (ℕ × List ℕ × ℕ → K) × ℕ)
    (S : List (List ℕ)) (hf : ∀ st k, (f st k).2 = st.2 + 1 ∧
      ∀ q, (f st k).1 q = if q.1 = st.2 ∧ q.2.1 ∈ S ∧ q.2.2 = k then 1 else st.1 q)
    (n : ℕ) (st : (ℕ × List ℕ × ℕ → K) × ℕ) (hst : ∀ q, st.2 ≤ q.1 → st.1 q = 0) :
    ((List.range n).foldl f st).2 = st.2 + n ∧
    ∀ q, ((List.range n).foldl f st).1 q =
      if st.2 ≤ q.1 then (if q.1 < st.2 + n ∧ q.2.1 ∈ S ∧ q.2.2 = q.1 - st.2 then 1 else 0) else st.1 q := by
  induction n with
  | zero =>
    refine ⟨by simp, fun q => ?_⟩
    simp only [List.range_zero, List.foldl_nil]
    by_cases h : st.2 ≤ q.1
    · rw [if_pos h, if_neg (by omega), hst q h]
    · rw [if_neg h]
  | succ n ih =>
    obtain ⟨h1, h2⟩ := ih
    rw [List.range_succ, List.foldl_append, List.foldl_cons, List.foldl_nil]
    refine ⟨by rw [(hf _ _).1, h1]; omega, fun q => ?_⟩
    rw [(hf _ _).2, h1, h2]
    by_cases hq : q.1 = st.2 + n
    · by_cases hc : q.2.1 ∈ S ∧ q.2.2 = n
      · rw [if_pos ⟨hq, hc⟩, if_pos (by omega), if_pos ⟨by omega, hc.1, by omega⟩]
      · have hle : st.2 ≤ q.1 := by omega
        rw [if_neg (fun h => hc h.2), if_pos hle, if_pos hle, if_neg (by omega), if_neg]
        rintro ⟨-, h3, h4⟩
        exact hc ⟨h3, by omega⟩
    · rw [if_neg (fun h => hq h.1)]
      by_cases h : st.2 ≤ q.1
      · rw [if_pos h, if_pos h]
        congr 1
        simp only [eq_iff_iff]
        constructor
        · rintro ⟨a, b⟩; exact ⟨by omega, b⟩
        · rintro ⟨a, b⟩; exact ⟨by omega, b⟩
      · rw [if_neg h, if_neg h]

private theorem outer_loop (n : ℕ) (S : List ℕ → List (List ℕ))
    (f : List ℕ → (ℕ × List ℕ × ℕ → K) × ℕ → ℕ → (ℕ × List ℕ × ℕ → K) × ℕ)
    (hf : ∀ idx st k, (f idx st k).2 = st.2 + 1 ∧
      ∀ q, (f idx st k).1 q = if q.1 = st.2 ∧ q.2.1 ∈ S idx ∧ q.2.2 = k then 1 else st.1 q)
    (L : List (List ℕ)) (st : (ℕ × List ℕ × ℕ → K) × ℕ) (hst : ∀ q, st.2 ≤ q.1 → st.1 q = 0) :
    (L.foldl (fun st idx => (List.range n).foldl (f idx) st) st).2 = st.2 + L.length * n ∧
    (∀ q, q.1 < st.2 → (L.foldl (fun st idx => (List.range n).foldl (f idx) st) st).1 q = st.1 q) ∧
    (∀ q, st.2 + L.length * n ≤ q.1 →
      (L.foldl (fun st idx => (List.range n).foldl (f idx) st) st).1 q = 0) ∧
    ∀ p idx k, L[p]? = some idx → k < n → ∀ c k',
      (L.foldl (fun st idx => (List.range n).foldl (f idx) st) st).1 (st.2 + p * n + k, c, k') =
        if c ∈ S idx ∧ k' = k then 1 else 0 := by
  induction L generalizing st with
  | nil => exact ⟨by simp, fun q _ => rfl, fun q h => hst q (by simpa using h), by simp⟩
  | cons a L ih =>
    obtain ⟨h1, h2⟩ := inner_loop (f a) (S a) (hf a) n st hst
    have hst' : ∀ q, ((List.range n).foldl (f a) st).2 ≤ q.1 → ((List.range n).foldl (f a) st).1 q = 0 := by
      intro q hq
      rw [h1] at hq
      rw [h2, if_pos (by omega), if_neg (by omega)]
    obtain ⟨i1, i2, i3, i4⟩ := ih ((List.range n).foldl (f a) st) hst'
    rw [h1] at i1 i2 i3 i4
    simp only [List.foldl_cons, List.length_cons]
    refine ⟨by rw [i1]; ring, fun q hq => ?_, fun q hq => i3 q (by rw [Nat.succ_mul] at hq; omega), ?_⟩
    · rw [i2 q (by omega), h2, if_neg (by omega)]
    · intro p idx k hp hk c k'
      cases p with
      | zero =>
        simp only [List.getElem?_cons_zero, Option.some.injEq] at hp
        subst hp
        rw [i2 _ (by simp only; omega), h2]
        simp only
        rw [if_pos (by omega)]
        congr 1
        simp only [eq_iff_iff]
        constructor
        · rintro ⟨-, b, c⟩; exact ⟨b, by omega⟩
        · rintro ⟨b, c⟩; exact ⟨by omega, b, by omega⟩
      | succ p =>
        rw [List.getElem?_cons_succ] at hp
        rw [← i4 p idx k hp hk c k']
        congr 2
        ring

/-- C40: `ONPolynomialSet(ref_el, degree, shape)`: member `p*n + k` is expansion function `k` times the unit
tensor at the `p`-th index of the shape; there are `num_members` of them. -/
theorem on_coeffs_spec (n : ℕ) (shape : List ℕ) (hs : shape ≠ []) :
    (onCoeffs n shape : (ℕ × List ℕ × ℕ → K) × ℕ).2 = onNumMembers n shape ∧
    ∀ p idx k, (indexIterator shape)[p]? = some idx → k < n → ∀ c k',
      (onCoeffs n shape : (ℕ × List ℕ × ℕ → K) × ℕ).1 (p * n + k, c, k') =
        if c = idx ∧ k' = k then 1 else 0 := by
  have h := outer_loop (K := K) n (fun idx => [idx]) (fun idx st exp_bf =>
      (Function.update st.1 (st.2, idx, exp_bf) 1, st.2 + 1)) (by
      intro idx st k
      refine ⟨rfl, fun q => ?_⟩
      simp only [Function.update_apply, List.mem_singleton, Prod.ext_iff])
    (indexIterator shape) (fun _ => 0, 0) (fun _ _ => rfl)
  unfold onCoeffs onNumMembers
  rw [if_neg hs, if_neg hs]
  refine ⟨by rw [h.1, indexIterator_length shape hs]; simp, fun p idx k hp hk c k' => ?_⟩
  have := h.2.2.2 p idx k hp hk c k'
  simpa using this

/-- C40: every (index, expansion function) pair is hit by exactly one member. -/
theorem on_coeffs_unique (n : ℕ) (shape : List ℕ) (hs : shape ≠ []) (c : List ℕ)
    (hc : List.Forall₂ (· < ·) c shape) (k : ℕ) (hk : k < n) :
    ∃! b, b < onNumMembers n shape ∧ (onCoeffs n shape : (ℕ × List ℕ × ℕ → K) × ℕ).1 (b, c, k) = 1 := by
  obtain ⟨_, h2⟩ := on_coeffs_spec (K := K) n shape hs
  obtain ⟨p, hp, hpe⟩ := List.mem_iff_getElem.1 ((indexIterator_mem shape c hs).2 hc)
  have hlen := indexIterator_length shape hs
  refine ⟨p * n + k, ⟨?_, ?_⟩, ?_⟩
  · unfold onNumMembers
    rw [if_neg hs, ← hlen]
    calc p * n + k < p * n + n := by omega
      _ = (p + 1) * n := by ring
      _ ≤ _ := Nat.mul_le_mul_right _ hp
  · rw [h2 p c k (by rw [List.getElem?_eq_getElem hp, hpe]) hk, if_pos ⟨rfl, rfl⟩]
  · rintro b ⟨hb, hb1⟩
    unfold onNumMembers at hb
    rw [if_neg hs, ← hlen] at hb
    have hn : 0 < n := by omega
    have hq : b / n < (indexIterator shape).length := Nat.div_lt_of_lt_mul (by rwa [mul_comm])
    have hdecomp : b / n * n + b % n = b := by rw [mul_comm]; exact Nat.div_add_mod b n
    rw [← hdecomp, h2 (b / n) _ (b % n) (List.getElem?_eq_getElem hq) (Nat.mod_lt _ hn)] at hb1
    have : c = (indexIterator shape)[b / n] ∧ k = b % n := by
      by_contra hne
      rw [if_neg hne] at hb1
      exact zero_ne_one hb1
    have hpb : p = b / n := by
      rw [← List.Nodup.getElem_inj_iff (indexIterator_nodup shape) (hi := hp) (hj := hq), hpe, this.1]
    rw [hpb, this.2, hdecomp]

/-- C40: scalar shape: the identity matrix. -/
theorem on_coeffs_scalar (n b k : ℕ) :
    (onCoeffs n [] : (ℕ × List ℕ × ℕ → K) × ℕ).1 (b, [], k) = if b = k then 1 else 0 := by
  simp [onCoeffs]

/-- The index pairs that get their own member. -/
def symPairs (size : ℕ) : List (List ℕ) :=
  (indexIterator [size, size]).filter fun ij => ij.getD 0 0 ≤ ij.getD 1 0

private theorem symPairs_mem (size : ℕ) (c : List ℕ) :
    c ∈ symPairs size ↔ ∃ i j, c = [i, j] ∧ i ≤ j ∧ j < size := by
  unfold symPairs
  rw [List.mem_filter, indexIterator_mem _ _ (by simp)]
  simp only [decide_eq_true_eq]
  constructor
  · rintro ⟨h1, h2⟩
    cases h1 with
    | cons ha h => cases h with
      | cons hb h => cases h; exact ⟨_, _, rfl, by simpa using h2, hb⟩
  · rintro ⟨i, j, rfl, h1, h2⟩
    exact ⟨.cons (by omega) (.cons h2 .nil), by simpa using h1⟩

private theorem symPairs_length (size : ℕ) : (symPairs size).length = size * (size + 1) / 2 := by
  have h1 : (symPairs size).length = ∑ i ∈ Finset.range size, (size - i) := by
    unfold symPairs
    simp only [indexIterator, List.filter_flatMap, List.length_flatMap]
    have : ∀ i, (List.filter (fun ij : List ℕ => decide (ij.getD 0 0 ≤ ij.getD 1 0))
        (List.map (fun foo => i :: foo) (List.map (fun i => [i]) (List.range size)))).length = size - i := by
      intro i
      rw [List.map_map, List.filter_map, List.length_map]
      have e : ((fun ij : List ℕ => decide (ij.getD 0 0 ≤ ij.getD 1 0)) ∘
          ((fun foo => i :: foo) ∘ fun i => [i])) = fun j => decide (i ≤ j) := by
        funext j; simp
      rw [e, ← List.toFinset_card_of_nodup (List.Nodup.filter _ List.nodup_range)]
      have : (List.filter (fun j => decide (i ≤ j)) (List.range size)).toFinset = Finset.Ico i size := by
        ext j; simp [and_comm]
      rw [this, Nat.card_Ico]
    simp only [this]
    exact (Finset.sum_range fun i => size - i) ▸ (by
      rw [← List.sum_toFinset _ List.nodup_range, List.toFinset_range, Finset.sum_range])
  rw [h1, ← Finset.sum_range_reflect]
  have h2 : ∑ j ∈ Finset.range size, (size - (size - 1 - j)) = ∑ j ∈ Finset.range size, (j + 1) := by
    refine Finset.sum_congr rfl fun j hj => ?_
    have := Finset.mem_range.1 hj
    omega
  rw [h2]
  have h3 := Finset.sum_range_succ' (fun i => i) size
  simp only [add_zero] at h3
  rw [← h3, Finset.sum_range_id, Nat.add_sub_cancel, mul_comm]

private theorem onSym_eq (n size : ℕ) :
    (onSymCoeffs n size : (ℕ × List ℕ × ℕ → K) × ℕ) = (symPairs size).foldl (fun st idx =>
      (List.range n).foldl (fun st exp_bf =>
        (Function.update (Function.update st.1 (st.2, [idx.getD 0 0, idx.getD 1 0], exp_bf) 1)
          (st.2, [idx.getD 1 0, idx.getD 0 0], exp_bf) 1, st.2 + 1)) st) (fun _ => 0, 0) := by
  unfold onSymCoeffs symPairs
  rw [List.foldl_filter]
  congr 1
  funext st ij
  simp only [decide_eq_true_eq]
  by_cases h : ij.getD 0 0 = ij.getD 1 0
  · rw [if_pos h, if_pos h.le]
    simp only [h, Function.update_idem]
  · rw [if_neg h]
    by_cases h2 : ij.getD 0 0 < ij.getD 1 0
    · rw [if_pos h2, if_pos h2.le]
    · rw [if_neg h2, if_neg (by omega)]

/-- C40: `ONSymTensorPolynomialSet`: member `p*n + k` is expansion function `k` times the symmetric unit
tensor of the `p`-th pair `i <= j`. -/
theorem on_sym_coeffs_spec (n size : ℕ) :
    (onSymCoeffs n size : (ℕ × List ℕ × ℕ → K) × ℕ).2 = onSymNumMembers n size ∧
    ∀ p i j k, (symPairs size)[p]? = some [i, j] → k < n → ∀ c k',
      (onSymCoeffs n size : (ℕ × List ℕ × ℕ → K) × ℕ).1 (p * n + k, c, k') =
        if (c = [i, j] ∨ c = [j, i]) ∧ k' = k then 1 else 0 := by
  have h := outer_loop (K := K) n (fun idx => [[idx.getD 0 0, idx.getD 1 0], [idx.getD 1 0, idx.getD 0 0]])
    (fun idx st exp_bf => (Function.update (Function.update st.1 (st.2, [idx.getD 0 0, idx.getD 1 0], exp_bf) 1)
          (st.2, [idx.getD 1 0, idx.getD 0 0], exp_bf) 1, st.2 + 1)) (by
      intro idx st k
      refine ⟨rfl, fun q => ?_⟩
      simp only [Function.update_apply, Prod.ext_iff, List.mem_cons, List.not_mem_nil, or_false]
      generalize idx.getD 0 0 = i0
      generalize idx.getD 1 0 = j0
      by_cases h1 : q.1 = st.2 <;> by_cases h2 : q.2.2 = k <;>
        by_cases h3 : q.2.1 = [j0, i0] <;>
        by_cases h4 : q.2.1 = [i0, j0] <;> simp [h1, h2, h3, h4])
    (symPairs size) (fun _ => 0, 0) (fun _ _ => rfl)
  rw [onSym_eq]
  refine ⟨by rw [h.1, symPairs_length]; simp [onSymNumMembers], fun p i j k hp hk c k' => ?_⟩
  have := h.2.2.2 p _ k hp hk c k'
  simpa using this

/-- C40: the members of `ONSymTensorPolynomialSet` are symmetric, and every symmetric array of expansion
coefficients is a combination of them in exactly one way: the span is the symmetric-tensor-valued
polynomials, of dimension `size (size+1)/2 * n`. -/
theorem on_sym_span (n size : ℕ) :
    (∀ b < onSymNumMembers n size, ∀ i j k,
      (onSymCoeffs n size : (ℕ × List ℕ × ℕ → K) × ℕ).1 (b, [i, j], k) =
        (onSymCoeffs n size : (ℕ × List ℕ × ℕ → K) × ℕ).1 (b, [j, i], k)) ∧
    ∀ a : ℕ → ℕ → ℕ → K, (∀ i j k, a i j k = a j i k) →
      ∃! x : Fin (onSymNumMembers n size) → K, ∀ i < size, ∀ j < size, ∀ k < n,
        a i j k = ∑ b, x b * (onSymCoeffs n size : (ℕ × List ℕ × ℕ → K) × ℕ).1 ((b : ℕ), [i, j], k) := by
  obtain ⟨_, h2⟩ := on_sym_coeffs_spec (K := K) n size
  have hlen := symPairs_length size
  have hnodup : (symPairs size).Nodup := (indexIterator_nodup _).filter _
  -- every member number decomposes
  have hdec : ∀ b < onSymNumMembers n size, ∃ p i j k, b = p * n + k ∧ k < n ∧
      (symPairs size)[p]? = some [i, j] ∧ i ≤ j ∧ j < size := by
    intro b hb
    unfold onSymNumMembers at hb
    rw [← hlen] at hb
    have hn : 0 < n := by
      rcases Nat.eq_zero_or_pos n with h | h
      · subst h; simp at hb
      · exact h
    have hq : b / n < (symPairs size).length := Nat.div_lt_of_lt_mul (by rwa [mul_comm])
    obtain ⟨i, j, he, h3, h4⟩ := (symPairs_mem size _).1 (List.getElem_mem hq)
    exact ⟨b / n, i, j, b % n, by rw [mul_comm]; exact (Nat.div_add_mod b n).symm, Nat.mod_lt _ hn,
      by rw [List.getElem?_eq_getElem hq, he], h3, h4⟩
  refine ⟨?_, fun a ha => ?_⟩
  · intro b hb i j k
    obtain ⟨p, i', j', k', rfl, hk', hp, _, _⟩ := hdec b hb
    rw [h2 p i' j' k' hp hk', h2 p i' j' k' hp hk']
    congr 1
    simp only [List.cons.injEq, and_true, eq_iff_iff]
    constructor <;> (rintro ⟨h, hk⟩; refine ⟨?_, hk⟩; tauto)
  · -- for i ≤ j the sum has a single term
    have hpos : ∀ i j k, i ≤ j → j < size → k < n → ∃ b : Fin (onSymNumMembers n size), ∃ p,
        (b : ℕ) = p * n + k ∧ (symPairs size)[p]? = some [i, j] := by
      intro i j k hij hj hk
      obtain ⟨p, hp, hpe⟩ := List.mem_iff_getElem.1 ((symPairs_mem size [i, j]).2 ⟨i, j, rfl, hij, hj⟩)
      refine ⟨⟨p * n + k, ?_⟩, p, rfl, by rw [List.getElem?_eq_getElem hp, hpe]⟩
      unfold onSymNumMembers
      rw [← hlen]
      calc p * n + k < p * n + n := by omega
        _ = (p + 1) * n := by ring
        _ ≤ _ := Nat.mul_le_mul_right _ hp
    have hsum : ∀ (x : Fin (onSymNumMembers n size) → K) i j k (b : Fin (onSymNumMembers n size)) p,
        i ≤ j → j < size → k < n → (b : ℕ) = p * n + k → (symPairs size)[p]? = some [i, j] →
        ∀ c, (c = [i, j] ∨ c = [j, i]) →
        ∑ b, x b * (onSymCoeffs n size : (ℕ × List ℕ × ℕ → K) × ℕ).1 ((b : ℕ), c, k) = x b := by
      intro x i j k b p hij hj hk hb hp c hc
      rw [Finset.sum_eq_single b]
      · rw [hb, h2 p i j k hp hk, if_pos ⟨hc, rfl⟩, mul_one]
      · intro b' _ hne
        obtain ⟨p', i', j', k', hb', hk', hp', hij', hj'⟩ := hdec b' b'.2
        rw [hb', h2 p' i' j' k' hp' hk', if_neg, mul_zero]
        rintro ⟨hc', rfl⟩
        apply hne
        have hee : i' = i ∧ j' = j := by
          rcases hc with rfl | rfl <;> rcases hc' with h | h <;>
            simp only [List.cons.injEq, and_true] at h <;> omega
        rw [hee.1, hee.2] at hp'
        have hpp : p' = p := by
          obtain ⟨q1, e1⟩ := List.getElem?_eq_some_iff.1 hp
          obtain ⟨q2, e2⟩ := List.getElem?_eq_some_iff.1 hp'
          rw [← List.Nodup.getElem_inj_iff hnodup (hi := q2) (hj := q1), e1, e2]
        exact Fin.ext (by rw [hb, hb', hpp])
      · simp
    choose! B Pn hB1 hB2 using hpos
    -- the coefficients are forced
    have hforce : ∀ b : Fin (onSymNumMembers n size), ∃ i j k p, (b : ℕ) = p * n + k ∧ i ≤ j ∧ j < size ∧
        k < n ∧ (symPairs size)[p]? = some [i, j] := by
      intro b
      obtain ⟨p, i, j, k, h1, h3, h4, h5, h6⟩ := hdec b b.2
      exact ⟨i, j, k, p, h1, h5, h6, h3, h4⟩
    choose I J Kk Pp g1 g2 g3 g4 g5 using hforce
    refine ⟨fun b => a (I b) (J b) (Kk b), ?_, ?_⟩
    · have main : ∀ i j k, i ≤ j → j < size → k < n → ∀ c, (c = [i, j] ∨ c = [j, i]) → a i j k =
          ∑ b : Fin (onSymNumMembers n size), a (I b) (J b) (Kk b) *
            (onSymCoeffs n size : (ℕ × List ℕ × ℕ → K) × ℕ).1 ((b : ℕ), c, k) := by
        intro i j k hij hj hk c hc
        have e1 := hB1 i j k hij hj hk
        have e2 := hB2 i j k hij hj hk
        rw [hsum (fun b => a (I b) (J b) (Kk b)) i j k (B i j k hij hj hk) (Pn i j k) hij hj hk e1 e2 c hc]
        set b := B i j k hij hj hk
        have hn : 0 < n := by omega
        have hk2 : Kk b = k := by
          have := congrArg (· % n) (e1.symm.trans (g1 b))
          simp only [Nat.add_comm _ k, Nat.add_comm _ (Kk b), Nat.add_mul_mod_self_right,
            Nat.mod_eq_of_lt hk, Nat.mod_eq_of_lt (g4 b)] at this
          exact this.symm
        have hp2 : Pp b = Pn i j k := by
          have h := e1.symm.trans (g1 b)
          rw [hk2] at h
          exact (Nat.eq_of_mul_eq_mul_right hn (by omega)).symm
        have h := g5 b
        rw [hp2, e2, Option.some.injEq, List.cons.injEq, List.cons.injEq] at h
        rw [hk2, ← h.1, ← h.2.1]
      intro i hi j hj k hk
      rcases le_total i j with hij | hij
      · exact main i j k hij hj hk _ (Or.inl rfl)
      · rw [ha i j k]; exact main j i k hij hi hk _ (Or.inr rfl)
    · intro y hy
      funext b
      have := hy (I b) (lt_of_le_of_lt (g2 b) (g3 b)) (J b) (g3 b) (Kk b) (g4 b)
      rw [this, hsum y (I b) (J b) (Kk b) b (Pp b) (g2 b) (g3 b) (g4 b) (g1 b) (g5 b) _ (Or.inl rfl)]

/-! Non-vacuity. -/
example : symPairs 2 = [[0, 0], [0, 1], [1, 1]] := by decide
example : onSymNumMembers 3 2 = 9 := by decide
example : (onSymCoeffs 3 2 : (ℕ × List ℕ × ℕ → ℚ) × ℕ).1 (1 * 3 + 2, [1, 0], 2) = 1 := by
  rw [(on_sym_coeffs_spec 3 2).2 1 0 1 2 (by decide) (by decide)]; simp
example : (onCoeffs 3 [2] : (ℕ × List ℕ × ℕ → ℚ) × ℕ).1 (1 * 3 + 2, [1], 2) = 1 := by
  rw [(on_coeffs_spec 3 [2] (by simp)).2 1 [1] 2 (by decide) (by decide)]; simp
example : List.Forall₂ (· < ·) [1] [2] := .cons (by decide) .nil

end FIAT
