/-
Products of barycentric coordinates on the UFC simplices, and what the certificates say.
-/
import Verif.Lemmas.KMVSpace
import Verif.Lemmas.KMVCert
import Mathlib.LinearAlgebra.Matrix.Gershgorin

namespace FIAT
open MvPolynomial
section

/-- A diagonally dominant product with an approximate inverse: the matrix of values is nonsingular. -/
theorem cert_spec {xs : List (List ℚ)} {es : List (List ℕ)} {B : List (List ℤ)} (h : certOk xs es B = true) (a : Fin es.length → ℝ)
    (ha : ∀ x ∈ xs, ∑ i, a i * (genVal (es[(i : ℕ)]) x : ℝ) = 0) : a = 0 := by
  unfold certOk at h
  rw [Bool.and_eq_true, Bool.and_eq_true, beq_iff_eq, beq_iff_eq, List.all_eq_true] at h
  obtain ⟨⟨h1, h2⟩, h3⟩ := h
  have hrow : ∀ i : Fin es.length, ∃ b, B[(i : ℕ)]? = some b ∧ b.length = xs.length ∧
      (es.zipIdx.map fun (e : List ℕ × ℕ) => if e.2 = (i : ℕ) then 0 else |certEntry b xs e.1|).sum < |certEntry b xs (es.getD i [])| := by
    intro i
    have hi : (i : ℕ) < B.length := by rw [h1]; exact i.2
    have := h3 (B[(i : ℕ)], (i : ℕ)) (by
      rw [List.mem_zipIdx_iff_getElem?]
      exact List.getElem?_eq_getElem hi)
    rw [Bool.and_eq_true, beq_iff_eq, decide_eq_true_iff] at this
    exact ⟨_, List.getElem?_eq_getElem hi, this.1, this.2⟩
  choose b b1 b2 b3 using hrow
  set A : Matrix (Fin es.length) (Fin es.length) ℝ := fun i l => ((certEntry (b i) xs es[(l : ℕ)] : ℚ) : ℝ) with hA
  have hdet : A.det ≠ 0 := by
    refine det_ne_zero_of_sum_row_lt_diag fun i => ?_
    have h4 := b3 i
    have e1 : es.getD i [] = es[(i : ℕ)] := by rw [List.getD_eq_getElem?_getD, List.getElem?_eq_getElem i.2]; rfl
    rw [e1] at h4
    have h5 : (es.zipIdx.map fun (e : List ℕ × ℕ) => if e.2 = (i : ℕ) then 0 else |certEntry (b i) xs e.1|).sum =
        ∑ l : Fin es.length, if l = i then 0 else |certEntry (b i) xs es[(l : ℕ)]| := by
      rw [← List.sum_ofFn]
      congr 1
      apply List.ext_getElem
      · simp
      · intro n hn hn'
        simp [Fin.ext_iff]
    rw [h5] at h4
    have h6 : ∑ l : Fin es.length, (if l = i then 0 else |certEntry (b i) xs es[(l : ℕ)]|) =
        ∑ l ∈ Finset.univ.erase i, |certEntry (b i) xs es[(l : ℕ)]| := by
      rw [← Finset.sum_erase_add _ _ (Finset.mem_univ i), if_pos rfl, add_zero]
      refine Finset.sum_congr rfl fun l hl => ?_
      rw [if_neg (Finset.ne_of_mem_erase hl)]
    rw [h6] at h4
    simp only [hA, Real.norm_eq_abs]
    exact_mod_cast h4
  refine Matrix.eq_zero_of_mulVec_eq_zero hdet ?_
  funext i
  rw [Matrix.mulVec, dotProduct, Pi.zero_apply]
  have hentry : ∀ e : List ℕ, ((certEntry (b i) xs e : ℚ) : ℝ) =
      ((List.zip (b i) xs).map fun p => ((p.1 : ℤ) : ℝ) * ((genVal e p.2 : ℚ) : ℝ)).sum := by
    intro e
    unfold certEntry
    generalize b i = bs
    clear h3 ha h2 hdet hA A b3 b2
    induction bs generalizing xs with
    | nil => simp
    | cons c bs ih =>
      cases xs with
      | nil => simp
      | cons x xs => simp [ih]
  have hswap : ∀ L : List (ℤ × List ℚ), (∀ p ∈ L, p.2 ∈ xs) →
      ∑ l : Fin es.length, (L.map fun p => ((p.1 : ℤ) : ℝ) * ((genVal es[(l : ℕ)] p.2 : ℚ) : ℝ)).sum * a l = 0 := by
    intro L
    induction L with
    | nil => simp
    | cons p L ih =>
      intro hL
      simp only [List.map_cons, List.sum_cons, add_mul, Finset.sum_add_distrib]
      rw [ih fun q hq => hL q (List.mem_cons_of_mem _ hq), add_zero]
      have := ha p.2 (hL p List.mem_cons_self)
      calc _ = ((p.1 : ℤ) : ℝ) * ∑ l : Fin es.length, a l * ((genVal es[(l : ℕ)] p.2 : ℚ) : ℝ) := by
            rw [Finset.mul_sum]
            exact Finset.sum_congr rfl fun l _ => by ring
        _ = 0 := by rw [this, mul_zero]
  simp only [hA, hentry]
  exact hswap _ fun p hp => (List.of_mem_zip hp).2

variable {D : ℕ}

/-- The barycentric coordinates of the UFC simplex as polynomials. -/
noncomputable def baryPolys (D : ℕ) : List (MvPolynomial (Fin D) ℝ) := (1 - ∑ i, X i) :: List.ofFn X

/-- A product of powers of the barycentric coordinates. -/
noncomputable def genPoly (D : ℕ) (e : List ℕ) : MvPolynomial (Fin D) ℝ := (List.zipWith (fun b n => b ^ n) (baryPolys D) e).prod

theorem eval_zip_prod (x : Fin D → ℝ) (L : List (MvPolynomial (Fin D) ℝ)) (e : List ℕ) :
    eval x (List.zipWith (fun b n => b ^ n) L e).prod = (List.zipWith (fun (b : ℝ) (n : ℕ) => b ^ n) (L.map (eval x)) e).prod := by
  induction L generalizing e with
  | nil => simp
  | cons b L ih =>
    cases e with
    | nil => simp
    | cons n e => simp [ih]

theorem eval_genPoly_bary (x : Fin D → ℝ) (e : List ℕ) :
    eval x (genPoly D e) = (List.zipWith (fun (b : ℝ) (n : ℕ) => b ^ n) ((1 - ∑ i, x i) :: List.ofFn x) e).prod := by
  unfold genPoly
  rw [eval_zip_prod]
  congr 2
  unfold baryPolys
  rw [List.map_cons, List.map_ofFn]
  congr 1
  · simp
  · congr 1
    funext i
    simp

theorem cast_zip_prod (L : List ℚ) (e : List ℕ) : (((List.zipWith (fun (b : ℚ) (n : ℕ) => b ^ n) L e).prod : ℚ) : ℝ) =
    (List.zipWith (fun (b : ℝ) (n : ℕ) => b ^ n) (L.map fun q : ℚ => (q : ℝ)) e).prod := by
  induction L generalizing e with
  | nil => simp
  | cons b L ih =>
    cases e with
    | nil => simp
    | cons n e => simp [ih]

theorem eval_genPoly (x : List ℚ) (hx : x.length = D) (e : List ℕ) :
    eval (toVec D (x.map fun q : ℚ => (q : ℝ))) (genPoly D e) = ((genVal e x : ℚ) : ℝ) := by
  rw [eval_genPoly_bary]
  unfold genVal
  rw [cast_zip_prod]
  congr 2
  have hof : List.ofFn (toVec D (x.map fun q : ℚ => (q : ℝ))) = x.map fun q : ℚ => (q : ℝ) := by
    subst hx
    apply List.ext_getElem
    · simp
    · intro n hn hn'
      simp only [List.length_map] at hn'
      simp [toVec, hn']
  unfold baryQ
  rw [List.map_cons, hof, ← List.sum_ofFn, hof, Rat.cast_sub, Rat.cast_one, Rat.cast_list_sum]

theorem zip_prod_degree (L : List (MvPolynomial (Fin D) ℝ)) (hL : ∀ p ∈ L, p.totalDegree ≤ 1) (e : List ℕ) :
    (List.zipWith (fun b n => b ^ n) L e).prod.totalDegree ≤ e.sum := by
  induction L generalizing e with
  | nil => simp
  | cons b L ih =>
    cases e with
    | nil => simp
    | cons n e =>
      rw [List.zipWith_cons_cons, List.prod_cons, List.sum_cons]
      refine (totalDegree_mul _ _).trans (Nat.add_le_add ?_ (ih (fun p hp => hL p (List.mem_cons_of_mem _ hp)) e))
      refine (totalDegree_pow _ _).trans ?_
      have := hL b List.mem_cons_self
      calc n * b.totalDegree ≤ n * 1 := Nat.mul_le_mul_left _ this
        _ = n := mul_one n

theorem genPoly_degree (e : List ℕ) : (genPoly D e).totalDegree ≤ e.sum := by
  refine zip_prod_degree _ (fun p hp => ?_) e
  rcases List.mem_cons.1 hp with rfl | hp
  · refine (totalDegree_sub _ _).trans (max_le (by simp) ?_)
    exact totalDegree_finsetSum_le fun i _ => (totalDegree_X _).le
  · obtain ⟨i, rfl⟩ := (List.mem_ofFn' _ _).1 hp
    exact (totalDegree_X _).le

/-- A product is zero where one of the coordinates with a positive exponent is. -/
theorem zip_prod_zero (L : List ℝ) (e : List ℕ) {a n : ℕ} (h1 : L[a]? = some 0) (h2 : e[a]? = some n) (hn : n ≠ 0) :
    (List.zipWith (fun (b : ℝ) (n : ℕ) => b ^ n) L e).prod = 0 := by
  rw [List.prod_eq_zero_iff, List.mem_iff_getElem?]
  refine ⟨a, ?_⟩
  rw [List.getElem?_zipWith, h1, h2]
  simp [hn]

/-- The UFC simplices: vertex 0 is the origin, vertex `i + 1` the unit vector `i`. -/
def UFCVerts (s : SimplexCell (Fin D → ℝ)) : Prop := ∀ a < D + 1, s.v a = fun i : Fin D => if a = (i : ℕ) + 1 then 1 else 0

theorem onEntity_bary {s : SimplexCell (Fin D → ℝ)} (hs : UFCVerts s) {t : List ℕ} (hn : t.Nodup) (ht : ∀ a ∈ t, a < D + 1) {x : Fin D → ℝ}
    (hx : OnEntity s t x) {a : ℕ} (ha : a < D + 1) (hat : a ∉ t) : ((1 - ∑ i, x i) :: List.ofFn x)[a]? = some 0 := by
  obtain ⟨c, c1, c2⟩ := hx
  have hxi : ∀ i : Fin D, x i = if (i : ℕ) + 1 ∈ t then c (i + 1) else 0 := by
    intro i
    rw [c2, ← List.sum_toFinset _ hn, Finset.sum_apply]
    have : ∀ b ∈ t.toFinset, (c b • s.v b) i = if b = (i : ℕ) + 1 then c b else 0 := by
      intro b hb
      rw [hs b (ht b (List.mem_toFinset.1 hb))]
      simp
    rw [Finset.sum_congr rfl this, Finset.sum_ite_eq']
    simp
  cases a with
  | zero =>
    rw [List.getElem?_cons_zero, Option.some.injEq, sub_eq_zero]
    simp only [hxi]
    rw [← c1, ← List.sum_toFinset _ hn]
    rw [← Finset.sum_filter]
    refine (Finset.sum_bij (fun (i : Fin D) _ => (i : ℕ) + 1) (fun i hi => ?_) (fun i _ j _ h => Fin.ext (by omega)) (fun b hb => ?_)
      (fun i _ => rfl)).symm
    · exact List.mem_toFinset.2 (Finset.mem_filter.1 hi).2
    · have hb' := List.mem_toFinset.1 hb
      have h0 : b ≠ 0 := fun h => hat (h ▸ hb')
      have := ht b hb'
      refine ⟨⟨b - 1, by omega⟩, Finset.mem_filter.2 ⟨Finset.mem_univ _, ?_⟩, ?_⟩
      · show b - 1 + 1 ∈ t
        rw [Nat.sub_add_cancel (by omega)]
        exact hb'
      · show b - 1 + 1 = b
        omega
  | succ a =>
    rw [List.getElem?_cons_succ, List.getElem?_ofFn]
    rw [dif_pos (by omega), Option.some.injEq, hxi]
    exact if_neg hat

/-- A product of barycentric coordinates vanishes on the entities without one of its vertices. -/
theorem genPoly_vanish {s : SimplexCell (Fin D → ℝ)} (hs : UFCVerts s) {t : List ℕ} (hn : t.Nodup) (ht : ∀ a ∈ t, a < D + 1) {x : Fin D → ℝ}
    (hx : OnEntity s t x) {e : List ℕ} {a n : ℕ} (ha : a < D + 1) (hat : a ∉ t) (he : e[a]? = some n) (hn0 : n ≠ 0) :
    eval x (genPoly D e) = 0 := by
  rw [eval_genPoly_bary]
  exact zip_prod_zero _ _ (onEntity_bary hs hn ht hx ha hat) he hn0

/-- The number of vertices a product belongs to. -/
def suppCard (e : List ℕ) : ℕ := ((List.range e.length).filter fun (a : ℕ) => decide (e.getD a 0 ≠ 0)).length

/-- If a product belongs to more vertices than an entity has, it vanishes on the entity. -/
theorem genPoly_vanish_card {s : SimplexCell (Fin D → ℝ)} (hs : UFCVerts s) {t : List ℕ} (hn : t.Nodup) (ht : ∀ a ∈ t, a < D + 1) {x : Fin D → ℝ}
    (hx : OnEntity s t x) {e : List ℕ} (hlen : e.length = D + 1) (hc : t.length < suppCard e) : eval x (genPoly D e) = 0 := by
  by_contra hne
  have hall : ∀ a n, e[a]? = some n → n ≠ 0 → a ∈ t := by
    intro a n hn' h0
    by_contra hat
    exact hne (genPoly_vanish hs hn ht hx (by rw [← hlen]; exact (List.getElem?_eq_some_iff.1 hn').1) hat hn' h0)
  have h1 : suppCard e ≤ t.toFinset.card := by
    unfold suppCard
    rw [← List.toFinset_card_of_nodup (List.nodup_range.filter _)]
    refine Finset.card_le_card fun a ha => ?_
    obtain ⟨h3, h4⟩ := List.mem_filter.1 (List.mem_toFinset.1 ha)
    have h5 := List.mem_range.1 h3
    rw [decide_eq_true_iff] at h4
    rw [List.getD_eq_getElem?_getD, List.getElem?_eq_getElem h5, Option.getD_some] at h4
    exact List.mem_toFinset.2 (hall a _ (List.getElem?_eq_getElem h5) h4)
  rw [List.toFinset_card_of_nodup hn] at h1
  omega

end
end FIAT
