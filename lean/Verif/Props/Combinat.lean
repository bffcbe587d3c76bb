/-
C01, C02 and the enumeration part of C40.
-/
import Verif.Model.Combinat
import Verif.Lemmas.ListSum
import Mathlib.Data.Nat.Choose.Sum
import Mathlib.Data.List.Nodup
import Mathlib.Tactic.Ring
import Mathlib.Tactic.Linarith
import Mathlib.Algebra.BigOperators.Group.List.Basic

namespace FIAT

theorem mem_pyRange {a b x : ℕ} : x ∈ pyRange a b ↔ a ≤ x ∧ x < b := by
  unfold pyRange; simp only [List.mem_range'_1]; omega

theorem nodup_pyRange (a b : ℕ) : (pyRange a b).Nodup := List.nodup_range'

theorem length_pyRange (a b : ℕ) : (pyRange a b).length = b - a := by simp [pyRange]

/-! ### C01: `mis` -/

theorem mis_zero_right (m : ℕ) : mis m 0 = [List.replicate m 0] := by
  match m with
  | 0 => simp [mis]
  | 1 => simp [mis]
  | m + 2 => simp [mis]

/-- C01: `mis(m, n)` contains exactly the `m`-tuples of naturals with sum `n`. -/
theorem mis_mem (m n : ℕ) (hm : 1 ≤ m) (t : List ℕ) :
    t ∈ mis m n ↔ t.length = m ∧ t.sum = n := by
  induction m using Nat.strong_induction_on generalizing n t with
  | _ m ih =>
    match m, hm with
    | 1, _ =>
      match t with
      | [] => simp [mis]
      | [a] => simp [mis]
      | a :: b :: t => simp [mis]
    | m + 2, _ =>
      by_cases hn : n = 0
      · subst hn
        rw [mis_zero_right, List.mem_singleton]
        constructor
        · rintro rfl; simp
        · rintro ⟨h1, h2⟩
          rw [List.eq_replicate_iff]
          refine ⟨h1, fun b hb => ?_⟩
          exact Nat.le_zero.mp (h2 ▸ List.single_le_sum (by simp) b hb)
      · simp only [mis, hn, if_false, List.mem_flatMap, List.mem_range, List.mem_map]
        constructor
        · rintro ⟨i, hi, foo, hfoo, rfl⟩
          rw [ih (m + 1) (by omega) i (by omega)] at hfoo
          simp [hfoo.1, hfoo.2]; omega
        · rintro ⟨h1, h2⟩
          match t with
          | [] => simp at h1
          | a :: t =>
            simp at h1 h2
            refine ⟨t.sum, by omega, t, ?_, ?_⟩
            · rw [ih (m + 1) (by omega) _ (by omega)]; exact ⟨h1, rfl⟩
            · congr 1; omega

/-- C01: `mis(m, n)` has no repetition. -/
theorem mis_nodup (m n : ℕ) : (mis m n).Nodup := by
  induction m using Nat.strong_induction_on generalizing n with
  | _ m ih =>
    match m with
    | 0 => simp only [mis]; split <;> simp
    | 1 => simp [mis]
    | m + 2 =>
      by_cases hn : n = 0
      · subst hn; rw [mis_zero_right]; simp
      · simp only [mis, hn, if_false]
        rw [List.nodup_flatMap]
        refine ⟨fun i _ => (ih (m + 1) (by omega) i).map (fun a b h => by simpa using h), ?_⟩
        refine List.Nodup.pairwise_of_forall_ne List.nodup_range ?_
        intro i hi j hj hij
        simp only [List.mem_range] at hi hj
        intro x hx hy
        simp only [List.mem_map] at hx hy
        obtain ⟨a, _, rfl⟩ := hx
        obtain ⟨b, _, hb⟩ := hy
        simp at hb
        omega

/-- C01: number of tuples. -/
theorem mis_length (m n : ℕ) (hm : 1 ≤ m) :
    (mis m n).length = (n + m - 1).choose (m - 1) := by
  induction m using Nat.strong_induction_on generalizing n with
  | _ m ih =>
    match m, hm with
    | 1, _ => simp [mis]
    | m + 2, _ =>
      by_cases hn : n = 0
      · subst hn; rw [mis_zero_right]; simp
      · simp only [mis, hn, if_false, List.length_flatMap, List.length_map]
        have h1 : (List.range (n + 1)).map (fun i => (mis (m + 1) i).length)
            = (List.range (n + 1)).map (fun i => (i + m).choose m) := by
          apply List.map_congr_left
          intro i _
          rw [ih (m + 1) (by omega) i (by omega)]; simp
        rw [h1, list_sum_range, Nat.sum_range_add_choose]
        congr 1

/-- C01: with the recursion limit at least `m`, the Python function returns `mis m n`. -/
theorem misFuel_eq (m n fuel : ℕ) (hm : 1 ≤ m) (hf : m ≤ fuel) :
    misFuel fuel m n = some (mis m n) := by
  induction m generalizing n fuel with
  | zero => omega
  | succ m ih =>
    obtain ⟨f, rfl⟩ : ∃ f, fuel = f + 1 := ⟨fuel - 1, by omega⟩
    match m with
    | 0 => simp [misFuel, mis]
    | m + 1 =>
      have h1 : ((m + 1 + 1 : ℕ) : ℤ) ≠ 1 := by omega
      have h2 : ((m + 1 + 1 : ℕ) : ℤ) - 1 = ((m + 1 : ℕ) : ℤ) := by push_cast; ring
      rw [misFuel, if_neg h1]
      by_cases hn : n = 0
      · subst hn; rw [if_pos rfl, mis_zero_right, Int.toNat_natCast]
      · rw [if_neg hn, h2]
        have h3 : (fun i => do
            let foos ← misFuel f ((m + 1 : ℕ) : ℤ) i
            return foos.map fun foo => (n - i) :: foo)
          = fun i => pure (f := Option) ((mis (m + 1) i).map fun foo => (n - i) :: foo) := by
          funext i
          rw [ih i f (by omega) (by omega)]
          rfl
        rw [h3, List.mapM_pure]
        simp [mis, hn, List.flatMap]

/-- C01: for `m ≤ 0` and `n ≥ 1` the call exhausts every recursion limit. -/
theorem misFuel_nonterminating (m : ℤ) (n fuel : ℕ) (hm : m ≤ 0) (hn : 1 ≤ n) :
    misFuel fuel m n = none := by
  induction fuel generalizing m n with
  | zero => rfl
  | succ f ih =>
    have h1 : m ≠ 1 := by omega
    have h2 : n ≠ 0 := by omega
    rw [misFuel, if_neg h1, if_neg h2]
    have key : (List.range (n + 1)).mapM (fun i => do
        let foos ← misFuel f (m - 1) i
        return foos.map fun foo => (n - i) :: foo) = none := by
      rw [List.range_succ, List.mapM_append]
      rcases hl : (List.range n).mapM (fun i => do
        let foos ← misFuel f (m - 1) i
        return foos.map fun foo => (n - i) :: foo) with _ | l
      · rw [hl]; rfl
      · rw [hl]; simp [ih (m - 1) n (by omega) hn]
    rw [key]; rfl

/-- C01: the keys of a jet of order `order` on an `sd`-dimensional cell are exactly the derivative
multi-indices of total order at most `order`. -/
theorem jetKeys_mem (sd order : ℕ) (hsd : 1 ≤ sd) (t : List ℕ) :
    t ∈ jetKeys sd order ↔ t.length = sd ∧ t.sum ≤ order := by
  simp only [jetKeys, List.mem_flatMap, List.mem_range, mis_mem _ _ hsd]
  constructor
  · rintro ⟨a, ha, h1, h2⟩; omega
  · rintro ⟨h1, h2⟩; exact ⟨t.sum, by omega, h1, rfl⟩

/-- C01: no derivative is computed twice, so no dictionary key is overwritten. -/
theorem jetKeys_nodup (sd order : ℕ) (hsd : 1 ≤ sd) : (jetKeys sd order).Nodup := by
  rw [jetKeys, List.nodup_flatMap]
  refine ⟨fun i _ => mis_nodup _ _, ?_⟩
  refine List.Nodup.pairwise_of_forall_ne List.nodup_range ?_
  intro i _ j _ hij x hx hy
  rw [mis_mem _ _ hsd] at hx hy
  omega

/-- C01, non-vacuity: the second-order multi-indices in 3D, in the order of the code. -/
example : mis 3 2 = [[2,0,0],[1,1,0],[1,0,1],[0,2,0],[0,1,1],[0,0,2]] := by decide
example : (1 : ℕ) ≤ 3 ∧ misFuel 3 3 2 = some (mis 3 2) := ⟨by decide, misFuel_eq 3 2 3 (by decide) le_rfl⟩
example : misFuel 1000 0 1 = none := misFuel_nonterminating 0 1 1000 le_rfl le_rfl

/-! ### C02: `lattice_iter` -/

/-- C02: `lattice_iter(start, finish, d)` yields exactly the `d`-tuples with entries `≥ start` and
sum `< finish`. -/
theorem latticeIter_mem (start finish d : ℕ) (hd : 1 ≤ d) (t : List ℕ) :
    t ∈ latticeIter start finish d ↔
      t.length = d ∧ (∀ x ∈ t, start ≤ x) ∧ t.sum < finish := by
  induction d using Nat.strong_induction_on generalizing finish t with
  | _ d ih =>
    match d, hd with
    | 1, _ =>
      simp only [latticeIter, List.mem_map, mem_pyRange]
      match t with
      | [] => simp
      | [a] => simp
      | a :: b :: t => simp
    | d + 2, _ =>
      simp only [latticeIter, List.mem_flatMap, List.mem_map, mem_pyRange]
      constructor
      · rintro ⟨ii, hii, jj, hjj, rfl⟩
        rw [ih (d + 1) (by omega) _ (by omega)] at hjj
        obtain ⟨h1, h2, h3⟩ := hjj
        refine ⟨by simp [h1], ?_, by simp; omega⟩
        intro x hx
        rcases List.mem_append.mp hx with h | h
        · exact h2 x h
        · simp at h; omega
      · rintro ⟨h1, h2, h3⟩
        have hne : t ≠ [] := by rintro rfl; simp at h1
        obtain ⟨jj, ii, rfl⟩ : ∃ jj ii, t = jj ++ [ii] :=
          ⟨_, _, (List.dropLast_append_getLast hne).symm⟩
        simp at h1 h3
        refine ⟨ii, ⟨h2 ii (by simp), by omega⟩, jj, ?_, rfl⟩
        rw [ih (d + 1) (by omega) _ (by omega)]
        exact ⟨h1, fun x hx => h2 x (by simp [hx]), by omega⟩

/-- C02: `lattice_iter` yields no tuple twice. -/
theorem latticeIter_nodup (start finish d : ℕ) : (latticeIter start finish d).Nodup := by
  induction d using Nat.strong_induction_on generalizing finish with
  | _ d ih =>
    match d with
    | 0 => simp [latticeIter]
    | 1 =>
      simp only [latticeIter]
      exact (nodup_pyRange _ _).map fun a b h => by simpa using h
    | d + 2 =>
      simp only [latticeIter]
      rw [List.nodup_flatMap]
      refine ⟨fun i _ => (ih (d + 1) (by omega) _).map (fun a b h => by simpa using h), ?_⟩
      refine List.Nodup.pairwise_of_forall_ne (nodup_pyRange _ _) ?_
      intro i _ j _ hij x hx hy
      simp only [List.mem_map] at hx hy
      obtain ⟨a, _, rfl⟩ := hx
      obtain ⟨b, _, hb⟩ := hy
      have := List.append_inj_right' hb rfl
      simp at this
      omega

private theorem sum_pyRange_sub (g : ℕ → ℕ) (s F : ℕ) :
    ((pyRange s F).map fun ii => g (F - ii)).sum = ∑ k ∈ Finset.range (F - s), g (k + 1) := by
  by_cases h : F ≤ s
  · have : F - s = 0 := by omega
    simp [pyRange, this]
  · obtain ⟨M, rfl⟩ : ∃ M, F = s + M := ⟨F - s, by omega⟩
    have e : s + M - s = M := by omega
    rw [pyRange, e, List.range'_eq_map_range, List.map_map, list_sum_range,
      ← Finset.sum_range_reflect]
    refine Finset.sum_congr rfl fun i hi => ?_
    simp only [Finset.mem_range] at hi
    show g (s + M - (s + (M - 1 - i))) = _
    congr 1; omega

private theorem sum_choose_shift (c d M : ℕ) :
    ∑ k ∈ Finset.range M, (k + 1 - c + d).choose (d + 1) = (M - c + d + 1).choose (d + 2) := by
  induction M with
  | zero => simp
  | succ M ih =>
    rw [Finset.sum_range_succ, ih]
    by_cases h : M + 1 ≤ c
    · have e1 : M - c = 0 := by omega
      have e2 : M + 1 - c = 0 := by omega
      simp [e1, e2]
    · have e2 : M + 1 - c = M - c + 1 := by omega
      rw [e2, show M - c + 1 + d + 1 = (M - c + d + 1) + 1 by ring,
        Nat.choose_succ_succ (M - c + d + 1) (d + 1),
        show M - c + 1 + d = M - c + d + 1 by ring, add_comm]

/-- C02: the number of tuples, in closed form (natural subtraction: `0` when `finish ≤ d * start`). -/
theorem latticeIter_length (start finish d : ℕ) (hd : 1 ≤ d) :
    (latticeIter start finish d).length = (finish - d * start + d - 1).choose d := by
  induction d using Nat.strong_induction_on generalizing finish with
  | _ d ih =>
    match d, hd with
    | 1, _ => simp [latticeIter, length_pyRange]
    | d + 2, _ =>
      simp only [latticeIter, List.length_flatMap, List.length_map]
      have h1 : (pyRange start finish).map (fun ii => (latticeIter start (finish - ii) (d + 1)).length)
          = (pyRange start finish).map (fun ii =>
              (fun k => (k - (d + 1) * start + d).choose (d + 1)) (finish - ii)) := by
        apply List.map_congr_left
        intro i _
        rw [ih (d + 1) (by omega) _ (by omega)]
        rfl
      rw [h1, sum_pyRange_sub (fun k => (k - (d + 1) * start + d).choose (d + 1)), sum_choose_shift]
      have : finish - start - (d + 1) * start = finish - (d + 2) * start := by
        rw [Nat.sub_sub]; congr 1; ring
      rw [this]; rfl

/-- C02 in the form of the property: the index tuples of `make_lattice(verts, n, k)` on a simplex of
dimension `d` (`lattice_iter(k, n + 1 - k, d)`, reference_element.py:67-69). -/
theorem lattice_indices_mem (n k d : ℕ) (hd : 1 ≤ d) (t : List ℕ) :
    t ∈ latticeIter k (n + 1 - k) d ↔
      t.length = d ∧ (∀ x ∈ t, k ≤ x) ∧ t.sum + k ≤ n := by
  rw [latticeIter_mem _ _ _ hd]
  constructor
  · rintro ⟨h1, h2, h3⟩; exact ⟨h1, h2, by omega⟩
  · rintro ⟨h1, h2, h3⟩; exact ⟨h1, h2, by omega⟩

theorem lattice_indices_length (n k d : ℕ) (hd : 1 ≤ d) :
    (latticeIter k (n + 1 - k) d).length =
      if (d + 1) * k ≤ n then (n - (d + 1) * k + d).choose d else 0 := by
  rw [latticeIter_length _ _ _ hd]
  have e : (d + 1) * k = d * k + k := by ring
  split_ifs with h
  · congr 1; omega
  · have : n + 1 - k - d * k = 0 := by omega
    rw [this]
    exact Nat.choose_eq_zero_of_lt (by omega)

example : latticeIter 0 3 2 = [[0,0],[1,0],[2,0],[0,1],[1,1],[0,2]] := by decide
example : latticeIter 1 (4 + 1 - 1) 2 = [[1,1],[2,1],[1,2]] := by decide
example : ([2,1] : List ℕ) ∈ latticeIter 1 (4 + 1 - 1) 2 :=
  (lattice_indices_mem 4 1 2 (by decide) _).2 (by decide)

/-! ### C40: `index_iterator` -/

/-- C40: `index_iterator(shp)` yields exactly the multi-indices of the shape. -/
theorem indexIterator_mem (shp t : List ℕ) (h : shp ≠ []) :
    t ∈ indexIterator shp ↔ List.Forall₂ (· < ·) t shp := by
  induction shp generalizing t with
  | nil => exact absurd rfl h
  | cons s shp ih =>
    match shp with
    | [] =>
      simp only [indexIterator, List.mem_map, List.mem_range]
      constructor
      · rintro ⟨a, ha, rfl⟩; simp [ha]
      · intro h
        cases h with
        | cons h1 h2 => cases h2; exact ⟨_, h1, rfl⟩
    | s' :: shp =>
      simp only [indexIterator, List.mem_flatMap, List.mem_map, List.mem_range]
      constructor
      · rintro ⟨a, ha, foo, hfoo, rfl⟩
        exact List.Forall₂.cons ha ((ih foo (by simp)).1 hfoo)
      · intro h
        cases h with
        | cons h1 h2 => exact ⟨_, h1, _, (ih _ (by simp)).2 h2, rfl⟩

/-- C40: the enumeration is strictly increasing in the lexicographic order. -/
theorem indexIterator_sorted (shp : List ℕ) :
    (indexIterator shp).Pairwise (List.Lex (· < ·)) := by
  induction shp with
  | nil => simp [indexIterator]
  | cons s shp ih =>
    match shp with
    | [] =>
      simp only [indexIterator, List.pairwise_map]
      exact List.pairwise_lt_range.imp fun h => List.Lex.rel h
    | s' :: shp =>
      simp only [indexIterator]
      rw [List.pairwise_flatMap]
      refine ⟨fun a _ => ?_, ?_⟩
      · rw [List.pairwise_map]
        exact ih.imp fun h => List.Lex.cons h
      · refine List.pairwise_lt_range.imp ?_
        intro a b hab x hx y hy
        simp only [List.mem_map] at hx hy
        obtain ⟨x', _, rfl⟩ := hx
        obtain ⟨y', _, rfl⟩ := hy
        exact List.Lex.rel hab

/-- C40: no index is yielded twice. -/
theorem indexIterator_nodup (shp : List ℕ) : (indexIterator shp).Nodup :=
  (indexIterator_sorted shp).imp fun h e => by
    subst e
    exact (List.lt_irrefl (α := ℕ) _) h

/-- C40: the number of indices is the size of the array. -/
theorem indexIterator_length (shp : List ℕ) (h : shp ≠ []) :
    (indexIterator shp).length = shp.prod := by
  induction shp with
  | nil => exact absurd rfl h
  | cons s shp ih =>
    match shp with
    | [] => simp [indexIterator]
    | s' :: shp =>
      simp only [indexIterator, List.length_flatMap, List.length_map, ih (by simp), List.prod_cons]
      simp

example : indexIterator [2, 3] = [[0,0],[0,1],[0,2],[1,0],[1,1],[1,2]] := by decide
example : ([1, 2] : List ℕ) ∈ indexIterator [2, 3] :=
  (indexIterator_mem [2,3] [1,2] (by simp)).2 (.cons (by decide) (.cons (by decide) .nil))

end FIAT
