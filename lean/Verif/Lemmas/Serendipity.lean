/-
Helper lemmas for the serendipity element: a coordinate-free description of the basis functions and of the points,
linear independence of products of Legendre polynomials, and the unisolvence argument.
-/
import Verif.Model.Serendipity
import Verif.Lemmas.MvPoly
import Verif.Props.PointwiseDual
import Verif.Props.Orthopoly
import Mathlib.LinearAlgebra.Matrix.ToLinearEquiv
import Mathlib.Algebra.MvPolynomial.Degrees

namespace FIAT
open MvPolynomial

section products
variable {D : ℕ}

/-- `∏_c p_c(x_c)`. -/
noncomputable def prodPol (p : Fin D → Polynomial ℝ) : MvPolynomial (Fin D) ℝ := ∏ c, Polynomial.aeval (X c) (p c)

theorem prodPol_eq_sum (p : Fin D → Polynomial ℝ) :
    prodPol p = ∑ m ∈ Fintype.piFinset (fun c => (p c).support),
      monomial (Finsupp.equivFunOnFinite.symm m) (∏ c, (p c).coeff (m c)) := by
  unfold prodPol
  have h : ∀ c, Polynomial.aeval (X c : MvPolynomial (Fin D) ℝ) (p c) =
      ∑ j ∈ (p c).support, C ((p c).coeff j) * X c ^ j := by
    intro c
    rw [Polynomial.aeval_eq_sum_range' (n := (p c).natDegree + 1) (by omega)]
    rw [← Finset.sum_subset (Polynomial.supp_subset_range (Nat.lt_succ_self _))]
    · simp [smul_eq_C_mul]
    · intro x _ hx
      simp [Polynomial.notMem_support_iff.1 hx]
  rw [Finset.prod_congr rfl fun c _ => h c, Finset.prod_univ_sum]
  refine Finset.sum_congr rfl fun m _ => ?_
  rw [Finset.prod_mul_distrib, ← map_prod, monomial_eq]
  congr 1
  rw [Finsupp.prod_fintype _ _ (by simp)]
  simp

theorem coeff_prodPol (p : Fin D → Polynomial ℝ) (m : Fin D →₀ ℕ) :
    (prodPol p).coeff m = ∏ c, (p c).coeff (m c) := by
  rw [prodPol_eq_sum, coeff_sum]
  simp only [coeff_monomial]
  by_cases hm : (m : Fin D → ℕ) ∈ Fintype.piFinset (fun c => (p c).support)
  · rw [Finset.sum_eq_single (m : Fin D → ℕ)]
    · simp
    · intro b _ hb
      rw [if_neg]
      intro h
      exact hb (by rw [← h]; rfl)
    · intro h; exact absurd hm h
  · rw [Finset.sum_eq_zero]
    · rw [Fintype.mem_piFinset] at hm
      push Not at hm
      obtain ⟨c, hc⟩ := hm
      rw [Finset.prod_eq_zero (Finset.mem_univ c)]
      exact Polynomial.notMem_support_iff.1 hc
    · intro b hb
      rw [if_neg]
      intro h
      exact hm (by rw [← h]; exact hb)

theorem aeval_prodPol (f : Fin D → MvPolynomial (Fin D) ℝ) (p : Fin D → Polynomial ℝ) :
    MvPolynomial.aeval f (prodPol p) = ∏ c, Polynomial.aeval (f c) (p c) := by
  rw [prodPol, map_prod]
  refine Finset.prod_congr rfl fun c _ => ?_
  rw [← Polynomial.aeval_algHom_apply]
  simp

/-- A list of pairwise different indices with a linear combination of products of polynomials of these exact
degrees that vanishes has zero coefficients. -/
theorem prodPol_independent (P : ℕ → Polynomial ℝ) (hdeg : ∀ n, (P n).natDegree = n) (hP : ∀ n, P n ≠ 0)
    {ι : Type*} (s : Finset ι) (a : ι → Fin D → ℕ) (ha : Set.InjOn a s) (co : ι → ℝ)
    (h : ∑ i ∈ s, C (co i) * prodPol (fun c => P (a i c)) = 0) : ∀ i ∈ s, co i = 0 := by
  by_contra hne
  push Not at hne
  obtain ⟨i0, hi0, hco0⟩ := hne
  obtain ⟨i, hi, hmax⟩ := Finset.exists_max_image (s.filter fun i => co i ≠ 0) (fun i => ∑ c, a i c)
    ⟨i0, Finset.mem_filter.2 ⟨hi0, hco0⟩⟩
  rw [Finset.mem_filter] at hi
  have h1 := congrArg (coeff (Finsupp.equivFunOnFinite.symm (a i))) h
  rw [coeff_sum, coeff_zero, Finset.sum_eq_single i] at h1
  · rw [coeff_C_mul, coeff_prodPol, mul_eq_zero] at h1
    rcases h1 with h1 | h1
    · exact hi.2 h1
    · rw [Finset.prod_eq_zero_iff] at h1
      obtain ⟨c, _, hc⟩ := h1
      have hl : (P (a i c)).coeff (P (a i c)).natDegree ≠ 0 := by
        rw [Polynomial.coeff_natDegree]; exact Polynomial.leadingCoeff_ne_zero.2 (hP _)
      rw [hdeg] at hl
      exact hl hc
  · intro l hl hli
    rw [coeff_C_mul]
    by_cases hz : co l = 0
    · simp [hz]
    rw [coeff_prodPol, mul_eq_zero]
    right
    have hle := hmax l (Finset.mem_filter.2 ⟨hl, hz⟩)
    have hne : a l ≠ a i := fun hh => hli (ha hl hi.1 hh)
    have : ∃ c, a l c < a i c := by
      by_contra hno
      push Not at hno
      apply hne
      funext c
      have hs : ∑ c, a i c = ∑ c, a l c := le_antisymm (Finset.sum_le_sum fun c _ => hno c) hle
      exact ((Finset.sum_eq_sum_iff_of_le fun c _ => hno c).1 hs c (Finset.mem_univ c)).symm
    obtain ⟨c, hc⟩ := this
    apply Finset.prod_eq_zero (Finset.mem_univ c)
    apply Polynomial.coeff_eq_zero_of_natDegree_lt
    rw [hdeg]
    exact hc
  · intro hn; exact absurd hi.1 hn

end products

section comb
variable {D : ℕ}

/-- `∑_j co_j φ_j` over a list of functions. -/
noncomputable def combOf (co : ℕ → ℝ) : List (MvPolynomial (Fin D) ℝ) → MvPolynomial (Fin D) ℝ
  | [] => 0
  | p :: ps => C (co 0) * p + combOf (fun j => co (j + 1)) ps

theorem combOf_append (co : ℕ → ℝ) (l l' : List (MvPolynomial (Fin D) ℝ)) :
    combOf co (l ++ l') = combOf co l + combOf (fun j => co (j + l.length)) l' := by
  induction l generalizing co with
  | nil => simp [combOf]
  | cons p ps ih =>
    simp only [List.cons_append, combOf, ih, List.length_cons, add_assoc]

theorem combOf_eq_sum (co : ℕ → ℝ) (l : List (MvPolynomial (Fin D) ℝ)) :
    combOf co l = ∑ j : Fin l.length, C (co j) * l.get j := by
  induction l generalizing co with
  | nil => simp [combOf]
  | cons p ps ih =>
    rw [combOf, ih]
    simp only [List.length_cons, Fin.sum_univ_succ, Fin.val_zero, List.get_eq_getElem, Fin.val_succ,
      List.getElem_cons_zero, List.getElem_cons_succ]

theorem eval_combOf_zero (x : Fin D → ℝ) (co : ℕ → ℝ) (l : List (MvPolynomial (Fin D) ℝ))
    (h : ∀ p ∈ l, eval x p = 0) : eval x (combOf co l) = 0 := by
  induction l generalizing co with
  | nil => simp [combOf]
  | cons p ps ih =>
    rw [combOf, map_add, map_mul, h p (by simp), ih _ fun q hq => h q (by simp [hq])]
    simp

/-- Block-triangular unisolvence: blocks of functions and of points in the same order, later blocks vanish at the
points of earlier ones, and a combination of the functions of one block that vanishes at the points of that block has
zero coefficients. -/
theorem blocks_unisolvent {E : Type*} (es : List E) (F : E → List (MvPolynomial (Fin D) ℝ))
    (pts : E → Set (Fin D → ℝ))
    (hlater : es.Pairwise fun e e' => ∀ p ∈ F e', ∀ x ∈ pts e, eval x p = 0)
    (hown : ∀ e ∈ es, ∀ co : ℕ → ℝ, (∀ x ∈ pts e, eval x (combOf co (F e)) = 0) → ∀ j < (F e).length, co j = 0)
    (co : ℕ → ℝ) (h : ∀ e ∈ es, ∀ x ∈ pts e, eval x (combOf co (es.flatMap F)) = 0) :
    ∀ j < (es.flatMap F).length, co j = 0 := by
  induction es generalizing co with
  | nil => intro j hj; simp at hj
  | cons e es ih =>
    rw [List.pairwise_cons] at hlater
    have hfirst : ∀ j < (F e).length, co j = 0 := by
      refine hown e (by simp) co fun x hx => ?_
      have h1 := h e (by simp) x hx
      rw [List.flatMap_cons, combOf_append, map_add] at h1
      rw [eval_combOf_zero x _ (es.flatMap F), add_zero] at h1
      · exact h1
      · intro p hp
        rw [List.mem_flatMap] at hp
        obtain ⟨e', he', hp⟩ := hp
        exact hlater.1 e' he' p hp x hx
    have hz : combOf co (F e) = 0 := by
      rw [combOf_eq_sum]
      refine Finset.sum_eq_zero fun j _ => ?_
      rw [hfirst j j.2]; simp
    have hrest := ih hlater.2 (fun e' he' => hown e' (by simp [he'])) (fun j => co (j + (F e).length))
      (fun e' he' x hx => by
        have h1 := h e' (by simp [he']) x hx
        rw [List.flatMap_cons, combOf_append, hz, zero_add] at h1
        exact h1)
    intro j hj
    rcases Nat.lt_or_ge j (F e).length with hlt | hge
    · exact hfirst j hlt
    · have := hrest (j - (F e).length) (by
        rw [List.flatMap_cons, List.length_append] at hj; omega)
      rwa [Nat.sub_add_cancel hge] at this

end comb

section entities
variable {D : ℕ}

/-- The coordinate function that is 1 on the side `b` of the cube in direction `c` and 0 on the other side. -/
noncomputable def serLam (b : Bool) (c : Fin D) : MvPolynomial (Fin D) ℝ := if b then X c else 1 - X c

/-- The factor of a basis function in direction `c`; `none`: the entity is not perpendicular to the direction. -/
noncomputable def serFactor (o : Option Bool) (j : ℕ) (c : Fin D) : MvPolynomial (Fin D) ℝ :=
  match o with
  | some b => serLam b c
  | none => serLeg j (2 * X c - 1) * ((1 - X c) * X c)

/-- The basis function with index `a` of an entity of the cube with `m` free directions. -/
noncomputable def serPhi (code : Fin D → Option Bool) (m : ℕ) (a : Fin D → ℕ) : MvPolynomial (Fin D) ℝ :=
  C ((-1) ^ m) * ∏ c, serFactor (code c) (a c) c

/-- The indices of the basis functions of an entity with given free directions. -/
def serIdx (r : ℕ) : List (Fin D) → List (Fin D → ℕ)
  | [] => [0]
  | [c] => (List.range (r - 1)).map fun j => Pi.single c j
  | [c, c'] => (List.range' 4 (r - 3)).flatMap fun k => (List.range (k - 3)).map fun j =>
      Pi.single c j + Pi.single c' (k - 4 - j)
  | [c, c', c''] => (List.range' 6 (r - 5)).flatMap fun l => (List.range (l - 5)).flatMap fun j =>
      (List.range (j + 1)).map fun k => Pi.single c (l - 6 - j) + Pi.single c' (j - k) + Pi.single c'' k
  | _ => []

/-- An entity of the cube: the code and the list of free directions. -/
abbrev SerEnt (D : ℕ) := (Fin D → Option Bool) × List (Fin D)

/-- The free directions are listed once each. -/
def SerEnt.OK (e : SerEnt D) : Prop := e.2.Nodup ∧ (∀ c, c ∈ e.2 ↔ e.1 c = none) ∧ e.2.length ≤ 3

/-- The basis functions of an entity. -/
noncomputable def SerEnt.funcs (r : ℕ) (e : SerEnt D) : List (MvPolynomial (Fin D) ℝ) :=
  (serIdx r e.2).map (serPhi e.1 e.2.length)

theorem mem_serIdx (r : ℕ) (hr : 1 ≤ r) (e : SerEnt D) (he : e.OK) (a : Fin D → ℕ) :
    a ∈ serIdx r e.2 ↔ (∀ c, e.1 c ≠ none → a c = 0) ∧ ∑ c, a c + 2 * e.2.length ≤ r := by
  obtain ⟨code, ord⟩ := e
  obtain ⟨hnd, hmem, hlen⟩ := he
  simp only at hnd hmem hlen ⊢
  have hout : (∀ c, code c ≠ none → a c = 0) ↔ ∀ c, c ∉ ord → a c = 0 := by
    simp only [hmem, ne_eq]
  rw [hout]
  match ord, hnd, hlen with
  | [], _, _ =>
    simp only [serIdx, List.mem_singleton, List.not_mem_nil, not_false_eq_true, forall_true_left, List.length_nil,
      mul_zero, add_zero]
    constructor
    · rintro rfl; exact ⟨fun c => rfl, by simp⟩
    · rintro ⟨h, _⟩; funext c; exact h c
  | [c], _, _ =>
    simp only [serIdx, List.mem_map, List.mem_range, List.mem_singleton, List.length_singleton]
    constructor
    · rintro ⟨j, hj, rfl⟩
      refine ⟨fun d hd => Pi.single_eq_of_ne hd _, ?_⟩
      rw [Finset.sum_pi_single']
      simp; omega
    · rintro ⟨h1, h2⟩
      have hs : ∑ d, a d = a c := Finset.sum_eq_single c (fun d _ hd => h1 d hd) (by simp)
      refine ⟨a c, by omega, ?_⟩
      funext d
      by_cases hd : d = c
      · subst hd; simp
      · rw [Pi.single_eq_of_ne hd, h1 d hd]
  | [c, c'], hnd, _ =>
    have hcc : c ≠ c' := by simpa using hnd
    simp only [serIdx, List.mem_flatMap, List.mem_map, List.mem_range, List.mem_range'_1, List.mem_cons,
      List.not_mem_nil, or_false, not_or, List.length_cons, List.length_nil]
    constructor
    · rintro ⟨k, hk, j, hj, rfl⟩
      refine ⟨fun d hd => by simp [Pi.single_eq_of_ne hd.1, Pi.single_eq_of_ne hd.2], ?_⟩
      simp only [Pi.add_apply, Finset.sum_add_distrib, Finset.sum_pi_single', Finset.mem_univ, if_true]
      omega
    · rintro ⟨h1, h2⟩
      have hs : ∑ d, a d = a c + a c' := by
        rw [← Finset.sum_pair hcc]
        symm
        refine Finset.sum_subset (Finset.subset_univ _) fun d _ hd => ?_
        simp only [Finset.mem_insert, Finset.mem_singleton, not_or] at hd
        exact h1 d hd
      refine ⟨a c + a c' + 4, by omega, a c, by omega, ?_⟩
      funext d
      by_cases hd : d = c
      · subst hd; simp [Pi.single_eq_of_ne hcc]
      by_cases hd' : d = c'
      · subst hd'; simp only [Pi.add_apply, Pi.single_eq_of_ne hd, Pi.single_eq_same]; omega
      · simp [Pi.single_eq_of_ne hd, Pi.single_eq_of_ne hd', h1 d ⟨hd, hd'⟩]
  | [c, c', c''], hnd, _ =>
    have hcc : c ≠ c' ∧ c ≠ c'' ∧ c' ≠ c'' := by
      simp at hnd; tauto
    obtain ⟨h12, h13, h23⟩ := hcc
    simp only [serIdx, List.mem_flatMap, List.mem_map, List.mem_range, List.mem_range'_1, List.mem_cons,
      List.not_mem_nil, or_false, not_or, List.length_cons, List.length_nil]
    constructor
    · rintro ⟨l, hl, j, hj, k, hk, rfl⟩
      refine ⟨fun d hd => by
        simp [Pi.single_eq_of_ne hd.1, Pi.single_eq_of_ne hd.2.1, Pi.single_eq_of_ne hd.2.2], ?_⟩
      simp only [Pi.add_apply, Finset.sum_add_distrib, Finset.sum_pi_single', Finset.mem_univ, if_true]
      omega
    · rintro ⟨h1, h2⟩
      have hs : ∑ d, a d = a c + a c' + a c'' := by
        have : ∑ d ∈ ({c, c', c''} : Finset (Fin D)), a d = ∑ d, a d := by
          refine Finset.sum_subset (Finset.subset_univ _) fun d _ hd => ?_
          simp only [Finset.mem_insert, Finset.mem_singleton, not_or] at hd
          exact h1 d hd
        rw [← this, Finset.sum_insert (by simp [h12, h13]), Finset.sum_pair h23]
        omega
      refine ⟨a c + a c' + a c'' + 6, by omega, a c' + a c'', by omega, a c'', by omega, ?_⟩
      funext d
      by_cases hd : d = c
      · subst hd; simp only [Pi.add_apply, Pi.single_eq_of_ne h12, Pi.single_eq_of_ne h13, Pi.single_eq_same]
        omega
      by_cases hd' : d = c'
      · subst hd'; simp only [Pi.add_apply, Pi.single_eq_of_ne hd, Pi.single_eq_of_ne h23, Pi.single_eq_same]
        omega
      by_cases hd'' : d = c''
      · subst hd''; simp only [Pi.add_apply, Pi.single_eq_of_ne hd, Pi.single_eq_of_ne hd', Pi.single_eq_same]
        omega
      · simp [Pi.single_eq_of_ne hd, Pi.single_eq_of_ne hd', Pi.single_eq_of_ne hd'', h1 d ⟨hd, hd', hd''⟩]

theorem serIdx_nodup (r : ℕ) (e : SerEnt D) (he : e.OK) : (serIdx r e.2).Nodup := by
  obtain ⟨code, ord⟩ := e
  obtain ⟨hnd, -, hlen⟩ := he
  simp only at hnd hlen ⊢
  match ord, hnd, hlen with
  | [], _, _ => simp [serIdx]
  | [c], _, _ =>
    simp only [serIdx]
    exact List.nodup_range.map fun i j h => by simpa using congrFun h c
  | [c, c'], hnd, _ =>
    have hcc : c ≠ c' := by simpa using hnd
    simp only [serIdx]
    rw [List.nodup_flatMap]
    refine ⟨fun k _ => List.nodup_range.map fun i j h => ?_, ?_⟩
    · have := congrFun h c
      simpa [Pi.single_eq_of_ne hcc] using this
    · refine (List.nodup_range' (step := 1)).imp_of_mem ?_
      intro k k' hk hk' hne
      rw [Function.onFun, List.disjoint_left]
      intro a ha ha'
      simp only [List.mem_map, List.mem_range, List.mem_range'_1] at ha ha' hk hk'
      obtain ⟨j, hj, rfl⟩ := ha
      obtain ⟨j', hj', h⟩ := ha'
      have h1 := congrFun h c
      have h2 := congrFun h c'
      simp only [Pi.add_apply, Pi.single_eq_same, Pi.single_eq_of_ne hcc, Pi.single_eq_of_ne hcc.symm] at h1 h2
      omega
  | [c, c', c''], hnd, _ =>
    have hcc : c ≠ c' ∧ c ≠ c'' ∧ c' ≠ c'' := by
      simp at hnd; tauto
    obtain ⟨h12, h13, h23⟩ := hcc
    simp only [serIdx]
    rw [List.nodup_flatMap]
    refine ⟨fun l _ => ?_, ?_⟩
    · rw [List.nodup_flatMap]
      refine ⟨fun j _ => List.nodup_range.map fun i j h => ?_, ?_⟩
      · have := congrFun h c''
        simpa [Pi.single_eq_of_ne h13.symm, Pi.single_eq_of_ne h23.symm] using this
      · refine List.nodup_range.imp_of_mem ?_
        intro k k' hk hk' hne
        rw [Function.onFun, List.disjoint_left]
        intro a ha ha'
        simp only [List.mem_map, List.mem_range] at ha ha' hk hk'
        obtain ⟨j, hj, rfl⟩ := ha
        obtain ⟨j', hj', h⟩ := ha'
        have h1 := congrFun h c
        simp only [Pi.add_apply, Pi.single_eq_same, Pi.single_eq_of_ne h12, Pi.single_eq_of_ne h13] at h1
        omega
    · refine (List.nodup_range' (step := 1)).imp_of_mem ?_
      intro k k' hk hk' hne
      rw [Function.onFun, List.disjoint_left]
      intro a ha ha'
      simp only [List.mem_map, List.mem_range, List.mem_range'_1, List.mem_flatMap] at ha ha' hk hk'
      obtain ⟨j, hj, i, hi, rfl⟩ := ha
      obtain ⟨j', hj', i', hi', h⟩ := ha'
      have h1 := congrFun h c
      have h2 := congrFun h c'
      have h3 := congrFun h c''
      simp only [Pi.add_apply, Pi.single_eq_same, Pi.single_eq_of_ne h12, Pi.single_eq_of_ne h13,
        Pi.single_eq_of_ne h12.symm, Pi.single_eq_of_ne h13.symm, Pi.single_eq_of_ne h23,
        Pi.single_eq_of_ne h23.symm] at h1 h2 h3
      omega

theorem sum_range'_sub (n : ℕ) : ((List.range' 4 n).map fun k => k - 3).sum = (n + 1).choose 2 := by
  induction n with
  | zero => rfl
  | succ n ih =>
    rw [List.range'_concat, List.map_append, List.sum_append, ih]
    rw [show (n + 1 + 1).choose 2 = (n + 1) + (n + 1).choose 2 by
      rw [Nat.choose_succ_succ' (n + 1) 1, Nat.choose_one_right]]
    simp only [List.map_cons, List.map_nil, List.sum_cons, List.sum_nil]
    omega

theorem sum_range_succ_list (n : ℕ) : ((List.range n).map fun j => j + 1).sum = (n + 1).choose 2 := by
  induction n with
  | zero => rfl
  | succ n ih =>
    rw [List.range_succ, List.map_append, List.sum_append, ih]
    rw [show (n + 1 + 1).choose 2 = (n + 1) + (n + 1).choose 2 by
      rw [Nat.choose_succ_succ' (n + 1) 1, Nat.choose_one_right]]
    simp only [List.map_cons, List.map_nil, List.sum_cons, List.sum_nil]
    omega

theorem sum_range'_sub2 (n : ℕ) : ((List.range' 6 n).map fun l => (l - 5 + 1).choose 2).sum = (n + 2).choose 3 := by
  induction n with
  | zero => rfl
  | succ n ih =>
    rw [List.range'_concat, List.map_append, List.sum_append, ih]
    rw [show (n + 1 + 2).choose 3 = (n + 2).choose 2 + (n + 2).choose 3 from Nat.choose_succ_succ' (n + 2) 2]
    simp only [List.map_cons, List.map_nil, List.sum_cons, List.sum_nil, one_mul]
    rw [show 6 + n - 5 + 1 = n + 2 by omega]
    omega

/-- The number of basis functions of an entity. -/
theorem length_serIdx (r : ℕ) (ord : List (Fin D)) (h : ord.length ≤ 3) :
    (serIdx r ord).length = if ord.length = 0 then 1 else if ord.length = 1 then r - 1 else
      if ord.length = 2 then (r - 2).choose 2 else (r - 3).choose 3 := by
  match ord, h with
  | [], _ => rfl
  | [c], _ => simp [serIdx]
  | [c, c'], _ =>
    simp only [serIdx, List.length_flatMap, List.length_map, List.length_range, List.length_cons, List.length_nil]
    rw [sum_range'_sub]
    rcases Nat.lt_or_ge r 3 with hr | hr
    · have h1 : r - 3 = 0 := by omega
      simp only [h1]
      rw [Nat.choose_eq_zero_of_lt (show r - 2 < 2 by omega)]
      rfl
    · rw [show r - 3 + 1 = r - 2 by omega]; rfl
  | [c, c', c''], _ =>
    simp only [serIdx, List.length_flatMap, List.length_map, List.length_range, List.length_cons, List.length_nil]
    simp only [sum_range_succ_list]
    rw [sum_range'_sub2]
    rcases Nat.lt_or_ge r 5 with hr | hr
    · have h1 : r - 5 = 0 := by omega
      simp only [h1]
      rw [Nat.choose_eq_zero_of_lt (show r - 3 < 3 by omega)]
      rfl
    · rw [show r - 5 + 2 = r - 3 by omega]; rfl

/-- 0 or 1. -/
def serBit (b : Bool) : ℝ := if b then 1 else 0

/-- A basis function vanishes where one of the coordinates has a value 0 or 1 that it does not have on the entity. -/
theorem serPhi_vanish (code : Fin D → Option Bool) (m : ℕ) (a : Fin D → ℕ) (x : Fin D → ℝ) (c : Fin D) (b : Bool)
    (hx : x c = serBit b) (hc : code c ≠ some b) : eval x (serPhi code m a) = 0 := by
  rw [serPhi, map_mul, map_prod, Finset.prod_eq_zero (Finset.mem_univ c), mul_zero]
  unfold serFactor
  cases hcode : code c with
  | none =>
    cases b <;> simp [hx, serBit]
  | some b' =>
    have hne : b' ≠ b := fun h => hc (by rw [hcode, h])
    cases b <;> cases b' <;> simp_all [serLam, serBit]

/-- `∏_c P_{a_c}(2 x_c - 1)`. -/
noncomputable def serG (a : Fin D → ℕ) : MvPolynomial (Fin D) ℝ := ∏ c, serLeg (a c) (2 * X c - 1)

theorem serLeg_zero (e : MvPolynomial (Fin D) ℝ) : serLeg 0 e = 1 := by
  simp [serLeg, jacobiPoly, jacobiCoeff]

/-- The weight of an entity at a point. -/
noncomputable def serW (code : Fin D → Option Bool) (x : Fin D → ℝ) : ℝ :=
  ∏ c, match code c with
    | some b => eval x (serLam b c)
    | none => (1 - x c) * x c

theorem eval_serPhi (code : Fin D → Option Bool) (m : ℕ) (a : Fin D → ℕ) (ha : ∀ c, code c ≠ none → a c = 0)
    (x : Fin D → ℝ) : eval x (serPhi code m a) = ((-1) ^ m * serW code x) * eval x (serG a) := by
  rw [serPhi, map_mul, eval_C, mul_assoc]
  congr 1
  rw [serW, serG, map_prod, map_prod, ← Finset.prod_mul_distrib]
  refine Finset.prod_congr rfl fun c _ => ?_
  unfold serFactor
  cases hc : code c with
  | none => simp; ring
  | some b =>
    rw [ha c (by simp [hc]), serLeg_zero]
    simp

theorem eval_combOf_map {β : Type*} (x : Fin D → ℝ) (w : ℝ) (co : ℕ → ℝ) (l : List β)
    (f g : β → MvPolynomial (Fin D) ℝ) (h : ∀ a ∈ l, eval x (f a) = w * eval x (g a)) :
    eval x (combOf co (l.map f)) = w * eval x (combOf co (l.map g)) := by
  induction l generalizing co with
  | nil => simp [combOf]
  | cons a l ih =>
    simp only [List.map_cons, combOf, map_add, map_mul, eval_C]
    rw [h a (by simp), ih _ fun b hb => h b (by simp [hb])]
    ring

theorem totalDegree_combOf (n : ℕ) (co : ℕ → ℝ) (l : List (MvPolynomial (Fin D) ℝ))
    (h : ∀ p ∈ l, p.totalDegree ≤ n) : (combOf co l).totalDegree ≤ n := by
  induction l generalizing co with
  | nil => simp [combOf]
  | cons p l ih =>
    rw [combOf]
    refine (totalDegree_add _ _).trans (max_le ?_ (ih _ fun q hq => h q (by simp [hq])))
    refine (totalDegree_mul _ _).trans ?_
    rw [totalDegree_C, zero_add]
    exact h p (by simp)

theorem totalDegree_polynomial_aeval (e : MvPolynomial (Fin D) ℝ) (he : e.totalDegree ≤ 1) (p : Polynomial ℝ)
    (n : ℕ) (hn : p.natDegree ≤ n) : (Polynomial.aeval e p).totalDegree ≤ n := by
  rw [Polynomial.aeval_eq_sum_range' (n := n + 1) (by omega)]
  refine totalDegree_finsetSum_le fun i hi => ?_
  refine (totalDegree_smul_le _ _).trans ((totalDegree_pow _ _).trans ?_)
  rw [Finset.mem_range] at hi
  nlinarith

theorem totalDegree_mid (c : Fin D) : (2 * X c - 1 : MvPolynomial (Fin D) ℝ).totalDegree ≤ 1 := by
  refine (totalDegree_sub _ _).trans (max_le ?_ (by simp))
  refine (totalDegree_mul _ _).trans ?_
  rw [← map_ofNat (C : ℝ →+* MvPolynomial (Fin D) ℝ) 2, totalDegree_C, totalDegree_X]

theorem totalDegree_serG (a : Fin D → ℕ) : (serG a).totalDegree ≤ ∑ c, a c := by
  refine (totalDegree_finset_prod _ _).trans (Finset.sum_le_sum fun c _ => ?_)
  exact totalDegree_polynomial_aeval _ (totalDegree_mid c) _ _ (jacobiPoly_lead 0 0 _).2

theorem legendre_natDegree (n : ℕ) : (jacobiPoly (0 : ℝ) 0 n).natDegree = n :=
  le_antisymm (jacobiPoly_lead 0 0 n).2
    (Polynomial.le_natDegree_of_ne_zero (jacobiPoly_lead_pos (0 : ℝ) 0 (by norm_num) (by norm_num) n).ne')

theorem legendre_ne_zero (n : ℕ) : jacobiPoly (0 : ℝ) 0 n ≠ 0 := by
  intro h
  have := jacobiPoly_lead_pos (0 : ℝ) 0 (by norm_num) (by norm_num) n
  simp [h] at this

theorem serG_independent (co : ℕ → ℝ) (l : List (Fin D → ℕ)) (hl : l.Nodup) (h : combOf co (l.map serG) = 0) :
    ∀ j < l.length, co j = 0 := by
  have h1 := congrArg (MvPolynomial.aeval fun c : Fin D => (C (1 / 2) * (X c + 1) : MvPolynomial (Fin D) ℝ)) h
  rw [map_zero, combOf_eq_sum, map_sum] at h1
  have h2 : ∑ j : Fin (l.map serG).length, C (co j) *
      prodPol (fun c => jacobiPoly (0 : ℝ) 0
        ((l[(j : ℕ)]'(by simpa only [List.length_map] using j.2)) c)) = 0 := by
    rw [← h1]
    refine Finset.sum_congr rfl fun j _ => ?_
    rw [map_mul, algHom_C, algebraMap_eq]
    congr 1
    simp only [List.get_eq_getElem, List.getElem_map, serG, serLeg, prodPol]
    rw [map_prod]
    refine Finset.prod_congr rfl fun c _ => ?_
    rw [← Polynomial.aeval_algHom_apply]
    congr 2
    simp only [map_sub, map_mul, map_one, aeval_X, map_ofNat]
    rw [← mul_assoc, ← map_ofNat (C : ℝ →+* MvPolynomial (Fin D) ℝ) 2, ← C_mul]
    norm_num
  have h3 := prodPol_independent (jacobiPoly (0 : ℝ) 0) legendre_natDegree legendre_ne_zero Finset.univ _
    (fun i _ j _ hij => by
      exact Fin.ext ((List.Nodup.getElem_inj_iff hl).1 hij)) _ h2
  intro j hj
  exact h3 ⟨j, by simpa using hj⟩ (Finset.mem_univ _)

theorem eval_serG_congr (a : Fin D → ℕ) (x y : Fin D → ℝ) (h : ∀ c, x c = y c ∨ a c = 0) :
    eval x (serG a) = eval y (serG a) := by
  rw [serG, map_prod, map_prod]
  refine Finset.prod_congr rfl fun c _ => ?_
  rcases h c with h | h
  · simp only [serLeg]
    have e1 : ∀ z : Fin D → ℝ, eval z (Polynomial.aeval (2 * X c - 1 : MvPolynomial (Fin D) ℝ)
        (jacobiPoly (0 : ℝ) 0 (a c))) = Polynomial.eval (2 * z c - 1) (jacobiPoly (0 : ℝ) 0 (a c)) := by
      intro z
      have := Polynomial.aeval_algHom_apply (MvPolynomial.aeval z : MvPolynomial (Fin D) ℝ →ₐ[ℝ] ℝ)
        (2 * X c - 1) (jacobiPoly (0 : ℝ) 0 (a c))
      rw [← MvPolynomial.coe_aeval_eq_eval, RingHom.coe_coe, ← this]
      simp [Polynomial.coe_aeval_eq_eval]
    rw [e1, e1, h]
  · rw [h, serLeg_zero]; simp

/-- The lattice points of an entity. -/
def serLattice (r : ℕ) (e : SerEnt D) : Set (Fin D → ℝ) :=
  {x | ∃ α ∈ serIdx r e.2, ∀ c, x c = match e.1 c with
    | some b => serBit b
    | none => ((α c + 1 : ℕ) : ℝ) / ((r + 2 - 2 * e.2.length : ℕ) : ℝ)}

theorem serW_ne_zero (r : ℕ) (hr : 1 ≤ r) (e : SerEnt D) (he : e.OK) (x : Fin D → ℝ) (hx : x ∈ serLattice r e) :
    serW e.1 x ≠ 0 := by
  obtain ⟨α, hα, hx⟩ := hx
  rw [mem_serIdx r hr e he] at hα
  rw [serW, Finset.prod_ne_zero_iff]
  intro c _
  have hxc := hx c
  cases hc : e.1 c with
  | some b =>
    rw [hc] at hxc
    cases b <;> simp [serLam, hxc, serBit]
  | none =>
    rw [hc] at hxc
    have hle : α c ≤ ∑ c, α c := Finset.single_le_sum (f := α) (fun _ _ => Nat.zero_le _) (Finset.mem_univ c)
    have hpos : (0 : ℝ) < ((r + 2 - 2 * e.2.length : ℕ) : ℝ) := by
      rw [Nat.cast_pos]; omega
    have hlt : ((α c + 1 : ℕ) : ℝ) < ((r + 2 - 2 * e.2.length : ℕ) : ℝ) := by
      rw [Nat.cast_lt]; omega
    simp only at hxc ⊢
    refine mul_ne_zero ?_ ?_
    · rw [hxc, sub_ne_zero]
      exact (ne_of_lt ((div_lt_one hpos).2 hlt)).symm
    · rw [hxc]
      exact div_ne_zero (by rw [Nat.cast_ne_zero]; omega) hpos.ne'

/-- The functions of one entity are unisolvent on its lattice points. -/
theorem entity_unisolvent (r : ℕ) (hr : 1 ≤ r) (e : SerEnt D) (he : e.OK) (co : ℕ → ℝ)
    (h : ∀ x ∈ serLattice r e, eval x (combOf co (e.funcs r)) = 0) : ∀ j < (e.funcs r).length, co j = 0 := by
  have hidx := mem_serIdx r hr e he
  rw [SerEnt.funcs, List.length_map]
  by_cases hne : serIdx r e.2 = []
  · rw [hne]; intro j hj; simp at hj
  obtain ⟨a0, ha0⟩ := List.exists_mem_of_ne_nil _ hne
  have h2m : 2 * e.2.length ≤ r := by have := (hidx a0).1 ha0; omega
  refine serG_independent co _ (serIdx_nodup r e he) ?_
  have hN : (0 : ℝ) < ((r + 2 - 2 * e.2.length : ℕ) : ℝ) := by rw [Nat.cast_pos]; omega
  refine lattice_unisolvent D (r - 2 * e.2.length)
    (fun _ n => ((n + 1 : ℕ) : ℝ) / ((r + 2 - 2 * e.2.length : ℕ) : ℝ)) ?_ _ ?_ ?_
  · intro i n m hnm
    simp only at hnm
    rw [div_left_inj' hN.ne'] at hnm
    have := Nat.cast_injective hnm
    omega
  · refine totalDegree_combOf _ _ _ ?_
    intro p hp
    rw [List.mem_map] at hp
    obtain ⟨a, ha, rfl⟩ := hp
    have := ((hidx a).1 ha).2
    exact (totalDegree_serG a).trans (by omega)
  · intro α hα
    -- the point of the lattice of the entity
    let β : Fin D → ℕ := fun c => if e.1 c = none then α c else 0
    have hβ : β ∈ serIdx r e.2 := by
      rw [hidx]
      refine ⟨fun c hc => by simp [β, hc], ?_⟩
      have : ∑ c, β c ≤ ∑ c, α c := Finset.sum_le_sum fun c _ => by simp only [β]; split_ifs <;> omega
      omega
    let x : Fin D → ℝ := fun c => match e.1 c with
      | some b => serBit b
      | none => ((β c + 1 : ℕ) : ℝ) / ((r + 2 - 2 * e.2.length : ℕ) : ℝ)
    have hx : x ∈ serLattice r e := ⟨β, hβ, fun c => rfl⟩
    have h1 := h x hx
    rw [SerEnt.funcs, eval_combOf_map x ((-1) ^ e.2.length * serW e.1 x) co _ _ serG
      fun a ha => eval_serPhi _ _ _ ((hidx a).1 ha).1 x, mul_eq_zero] at h1
    rcases h1 with h1 | h1
    · exact absurd h1 (mul_ne_zero (pow_ne_zero _ (by norm_num)) (serW_ne_zero r hr e he x hx))
    · rw [← h1]
      have : ∀ (co : ℕ → ℝ) (l : List (Fin D → ℕ)) (y z : Fin D → ℝ),
          (∀ a ∈ l, eval y (serG a) = eval z (serG a)) →
          eval y (combOf co (l.map serG)) = eval z (combOf co (l.map serG)) := by
        intro co l
        induction l generalizing co with
        | nil => intro y z _; simp [combOf]
        | cons a l ih =>
          intro y z hyz
          simp only [List.map_cons, combOf, map_add, map_mul, eval_C]
          rw [hyz a (by simp), ih _ y z fun b hb => hyz b (by simp [hb])]
      refine this co _ _ x fun a ha => eval_serG_congr a _ _ fun c => ?_
      cases hc : e.1 c with
      | none => left; simp [x, β, hc]
      | some b => right; exact ((hidx a).1 ha).1 c (by simp [hc])

/-- The entities of the cube in an order in which the basis functions of later entities vanish on earlier ones. -/
structure SerEnts (es : List (SerEnt D)) : Prop where
  ok : ∀ e ∈ es, e.OK
  later : es.Pairwise fun e e' => ∃ c b, e.1 c = some b ∧ e'.1 c ≠ some b
  all : ∀ code, ∃ e ∈ es, e.1 = code

theorem serendipity_unisolvent (es : List (SerEnt D)) (hes : SerEnts es) (r : ℕ) (hr : 1 ≤ r) (co : ℕ → ℝ)
    (h : ∀ e ∈ es, ∀ x ∈ serLattice r e, eval x (combOf co (es.flatMap (SerEnt.funcs r))) = 0) :
    ∀ j < (es.flatMap (SerEnt.funcs r)).length, co j = 0 := by
  refine blocks_unisolvent es _ (serLattice r) ?_ (fun e he co => entity_unisolvent r hr e (hes.ok e he) co) co h
  refine hes.later.imp ?_
  rintro e e' ⟨c, b, h1, h2⟩ p hp x ⟨α, _, hx⟩
  rw [SerEnt.funcs, List.mem_map] at hp
  obtain ⟨a, _, rfl⟩ := hp
  refine serPhi_vanish _ _ _ _ c b ?_ h2
  rw [hx c, h1]

theorem serendipity_independent (es : List (SerEnt D)) (hes : SerEnts es) (r : ℕ) (hr : 1 ≤ r) :
    LinearIndependent ℝ (es.flatMap (SerEnt.funcs r)).get := by
  rw [Fintype.linearIndependent_iff]
  intro g hg i
  have h := serendipity_unisolvent es hes r hr
    (fun j => if hj : j < (es.flatMap (SerEnt.funcs r)).length then g ⟨j, hj⟩ else 0) (fun e _ x _ => by
      rw [combOf_eq_sum]
      simp only [Fin.is_lt, dite_true, Fin.eta]
      simp only [← smul_eq_C_mul]
      rw [hg, map_zero]) i i.2
  rw [dif_pos i.2] at h
  exact h

/-- The superlinear degree of a monomial: the sum of the exponents that are at least 2. -/
def superlinearDegree (m : Fin D →₀ ℕ) : ℕ := ∑ c, if 2 ≤ m c then m c else 0

/-- The univariate factor. -/
noncomputable def serFac (o : Option Bool) (j : ℕ) : Polynomial ℝ :=
  match o with
  | some true => Polynomial.X
  | some false => 1 - Polynomial.X
  | none => (jacobiPoly (0 : ℝ) 0 j).comp (2 * Polynomial.X - 1) * ((1 - Polynomial.X) * Polynomial.X)

theorem serPhi_eq_prodPol (code : Fin D → Option Bool) (m : ℕ) (a : Fin D → ℕ) :
    serPhi code m a = C ((-1) ^ m) * prodPol fun c => serFac (code c) (a c) := by
  rw [serPhi, prodPol]
  congr 1
  refine Finset.prod_congr rfl fun c _ => ?_
  unfold serFactor serFac serLam
  cases code c with
  | none =>
    simp only [map_mul, map_sub, map_one, Polynomial.aeval_X, Polynomial.aeval_comp, map_ofNat, serLeg]
  | some b => cases b <;> simp

theorem serFac_natDegree (o : Option Bool) (j : ℕ) : (serFac o j).natDegree ≤ if o = none then j + 2 else 1 := by
  unfold serFac
  have h1 : (1 - Polynomial.X : Polynomial ℝ).natDegree ≤ 1 :=
    (Polynomial.natDegree_sub_le _ _).trans (by simp)
  match o with
  | some true => exact Polynomial.natDegree_X.le
  | some false => exact h1
  | none =>
    rw [if_pos rfl]
    refine Polynomial.natDegree_mul_le.trans (Nat.add_le_add ?_ ?_)
    · refine Polynomial.natDegree_comp_le.trans ?_
      have : (2 * Polynomial.X - 1 : Polynomial ℝ).natDegree ≤ 1 := by
        refine (Polynomial.natDegree_sub_le _ _).trans (max_le ?_ (by simp))
        refine Polynomial.natDegree_mul_le.trans ?_
        rw [Polynomial.natDegree_ofNat, Polynomial.natDegree_X]
      rw [legendre_natDegree]
      nlinarith
    · exact Polynomial.natDegree_mul_le.trans (Nat.add_le_add h1 Polynomial.natDegree_X.le)

theorem superlinear_le (r : ℕ) (hr : 1 ≤ r) (e : SerEnt D) (he : e.OK) (p : MvPolynomial (Fin D) ℝ)
    (hp : p ∈ e.funcs r) (m : Fin D →₀ ℕ) (hm : m ∈ p.support) : superlinearDegree m ≤ r := by
  rw [SerEnt.funcs, List.mem_map] at hp
  obtain ⟨a, ha, rfl⟩ := hp
  rw [mem_serIdx r hr e he] at ha
  rw [serPhi_eq_prodPol, mem_support_iff, coeff_C_mul, coeff_prodPol] at hm
  have hm2 := right_ne_zero_of_mul hm
  rw [Finset.prod_ne_zero_iff] at hm2
  have hle : ∀ c, (if 2 ≤ m c then m c else 0) ≤ a c + 2 * (if e.1 c = none then 1 else 0) := by
    intro c
    have h1 := (Polynomial.le_natDegree_of_ne_zero (hm2 c (Finset.mem_univ c))).trans (serFac_natDegree _ _)
    by_cases hc : e.1 c = none
    · rw [if_pos hc] at h1 ⊢
      split_ifs <;> omega
    · rw [if_neg hc] at h1 ⊢
      split_ifs <;> omega
  have hcard : ∑ c, (if e.1 c = none then 1 else 0) = e.2.length := by
    rw [← List.toFinset_card_of_nodup he.1, Finset.sum_boole]
    simp only [Nat.cast_id]
    congr 1
    ext c
    simp [he.2.1 c]
  unfold superlinearDegree
  calc _ ≤ ∑ c, (a c + 2 * (if e.1 c = none then 1 else 0)) := Finset.sum_le_sum fun c _ => hle c
    _ = ∑ c, a c + 2 * e.2.length := by rw [Finset.sum_add_distrib, ← Finset.mul_sum, hcard]
    _ ≤ r := ha.2

/-- The exponent that belongs to an index of a basis function. -/
def serExpo (code : Fin D → Option Bool) (a : Fin D → ℕ) : Fin D → ℕ := fun c =>
  match code c with
  | some true => 1
  | some false => 0
  | none => a c + 2

theorem serExpo_mem (es : List (SerEnt D)) (hes : SerEnts es) (r : ℕ) (hr : 1 ≤ r) (m : Fin D →₀ ℕ) :
    superlinearDegree m ≤ r ↔
      (m : Fin D → ℕ) ∈ es.flatMap fun e => (serIdx r e.2).map (serExpo e.1) := by
  rw [List.mem_flatMap]
  have hcard : ∀ e : SerEnt D, e.OK → ∑ c, (if e.1 c = none then 1 else 0) = e.2.length := by
    intro e he
    rw [← List.toFinset_card_of_nodup he.1, Finset.sum_boole]
    simp only [Nat.cast_id]
    congr 1
    ext c
    simp [he.2.1 c]
  have hsum : ∀ e : SerEnt D, e.OK → ∀ a : Fin D → ℕ, (∀ c, e.1 c ≠ none → a c = 0) →
      (∀ c, (m : Fin D → ℕ) c = serExpo e.1 a c) → superlinearDegree m = ∑ c, a c + 2 * e.2.length := by
    intro e he a ha hm
    rw [← hcard e he, Finset.mul_sum, ← Finset.sum_add_distrib]
    refine Finset.sum_congr rfl fun c _ => ?_
    rw [hm c]
    unfold serExpo
    cases hc : e.1 c with
    | none => simp
    | some b => cases b <;> simp [ha c (by simp [hc])]
  constructor
  · intro h
    let code : Fin D → Option Bool := fun c => if m c = 0 then some false else if m c = 1 then some true else none
    obtain ⟨e, he, hcode⟩ := hes.all code
    let a : Fin D → ℕ := fun c => if m c = 0 then 0 else if m c = 1 then 0 else m c - 2
    have hm : ∀ c, (m : Fin D → ℕ) c = serExpo e.1 a c := by
      intro c
      simp only [serExpo, hcode, code, a]
      by_cases h0 : m c = 0
      · simp [h0]
      · by_cases h1 : m c = 1
        · simp [h1]
        · simp only [if_neg h0, if_neg h1]; omega
    have ha : ∀ c, e.1 c ≠ none → a c = 0 := by
      intro c hc
      simp only [hcode, code] at hc
      simp only [a]
      split_ifs with h0 h1
      · rfl
      · rfl
      · simp [h0, h1] at hc
    refine ⟨e, he, List.mem_map.2 ⟨a, ?_, (funext hm).symm⟩⟩
    rw [mem_serIdx r hr e (hes.ok e he)]
    exact ⟨ha, by rw [← hsum e (hes.ok e he) a ha hm]; exact h⟩
  · rintro ⟨e, he, hm⟩
    rw [List.mem_map] at hm
    obtain ⟨a, ha, hm⟩ := hm
    rw [mem_serIdx r hr e (hes.ok e he)] at ha
    rw [hsum e (hes.ok e he) a ha.1 fun c => by rw [hm]]
    exact ha.2

theorem serExpo_nodup (es : List (SerEnt D)) (hes : SerEnts es) (r : ℕ) (hr : 1 ≤ r) :
    (es.flatMap fun e => (serIdx r e.2).map (serExpo e.1)).Nodup := by
  rw [List.nodup_flatMap]
  refine ⟨fun e he => ?_, ?_⟩
  · refine (List.nodup_map_iff_inj_on (serIdx_nodup r e (hes.ok e he))).2 fun a ha a' ha' h => ?_
    rw [mem_serIdx r hr e (hes.ok e he)] at ha ha'
    funext c
    by_cases hc : e.1 c = none
    · have := congrFun h c
      simp only [serExpo, hc] at this
      omega
    · rw [ha.1 c hc, ha'.1 c hc]
  · refine hes.later.imp ?_
    rintro e e' ⟨c, b, h1, h2⟩
    rw [Function.onFun, List.disjoint_left]
    intro m hm hm'
    rw [List.mem_map] at hm hm'
    obtain ⟨a, _, rfl⟩ := hm
    obtain ⟨a', _, h⟩ := hm'
    have := congrFun h c
    simp only [serExpo, h1] at this
    cases hc : e'.1 c with
    | none => rw [hc] at this; cases b <;> simp at this
    | some b' =>
      rw [hc] at this h2
      cases b <;> cases b' <;> simp only [ne_eq, not_true_eq_false, reduceCtorEq] at this h2 <;> omega

/-- The span of the basis functions is the space of polynomials of superlinear degree at most `r`. -/
theorem serendipity_span_eq (es : List (SerEnt D)) (hes : SerEnts es) (r : ℕ) (hr : 1 ≤ r) :
    Submodule.span ℝ {p | p ∈ es.flatMap (SerEnt.funcs r)} =
      restrictSupport ℝ {m : Fin D →₀ ℕ | superlinearDegree m ≤ r} := by
  have hfin : {m : Fin D →₀ ℕ | superlinearDegree m ≤ r} =
      ((es.flatMap fun e => (serIdx r e.2).map (serExpo e.1)).map fun m =>
        Finsupp.equivFunOnFinite.symm m).toFinset := by
    ext m
    rw [Set.mem_ofPred_eq, serExpo_mem es hes r hr]
    simp only [List.coe_toFinset, Set.mem_ofPred_eq, List.mem_map]
    constructor
    · intro h; exact ⟨_, h, by ext; rfl⟩
    · rintro ⟨m', h, rfl⟩; exact h
  have hlen : ((es.flatMap fun e => (serIdx r e.2).map (serExpo e.1)).map fun m =>
        (Finsupp.equivFunOnFinite.symm m : Fin D →₀ ℕ)).toFinset.card = (es.flatMap (SerEnt.funcs r)).length := by
    rw [List.toFinset_card_of_nodup ((serExpo_nodup es hes r hr).map Finsupp.equivFunOnFinite.symm.injective)]
    simp only [List.length_map, List.length_flatMap, SerEnt.funcs]
  have hrank : Module.finrank ℝ (restrictSupport ℝ {m : Fin D →₀ ℕ | superlinearDegree m ≤ r}) =
      (es.flatMap (SerEnt.funcs r)).length := by
    rw [hfin, Module.finrank_eq_card_basis (basisRestrictSupport ℝ _)]
    simp [hlen]
  have hli := serendipity_independent es hes r hr
  have hfd : Module.Finite ℝ (restrictSupport ℝ {m : Fin D →₀ ℕ | superlinearDegree m ≤ r}) := by
    rw [hfin]
    exact Module.Finite.of_basis (basisRestrictSupport ℝ _)
  refine Submodule.eq_of_le_of_finrank_eq ?_ ?_
  · rw [Submodule.span_le]
    intro p hp
    rw [Set.mem_ofPred_eq, List.mem_flatMap] at hp
    obtain ⟨e, he, hp⟩ := hp
    rw [SetLike.mem_coe, mem_restrictSupport_iff]
    intro m hm
    exact superlinear_le r hr e (hes.ok e he) p hp m hm
  · rw [hrank, ← Fintype.card_fin (es.flatMap (SerEnt.funcs r)).length, ← finrank_span_eq_card hli]
    have : {p | p ∈ es.flatMap (SerEnt.funcs r)} = Set.range (es.flatMap (SerEnt.funcs r)).get := by
      ext p
      rw [Set.mem_ofPred_eq, List.mem_iff_get]
      rfl
    rw [this]

end entities
end FIAT
