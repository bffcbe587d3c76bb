/-
C59: the Brezzi-Douglas-Fortin-Marini element (FIAT/brezzi_douglas_fortin_marini.py).
-/
import Verif.Lemmas.BDFM
import Verif.Lemmas.CurlBlocks
import Verif.Props.Discontinuous

namespace FIAT
open MvPolynomial
section

/-- Specification: the Brezzi-Douglas-Fortin-Marini space of the triangle `s`: the fields with quadratic components whose normal component on
every edge is (the restriction of) a polynomial of degree at most one. -/
def IsBDFM (s : SimplexCell (Fin 2 → ℝ)) (w : Fin 2 → MvPolynomial (Fin 2) ℝ) : Prop :=
  (∀ j, (w j).totalDegree ≤ 2) ∧
  ∀ e t, HasEntity s.topo 1 e t → ∀ n : Fin 2 → ℝ, (∀ a ∈ t, ∀ c ∈ t, ∑ j, n j * (s.v a j - s.v c j) = 0) →
    ∃ p : MvPolynomial (Fin 2) ℝ, p.totalDegree ≤ 1 ∧ ∀ x, OnEntity s t x → ∑ j, n j * eval x (w j) = eval x p

/-- The edges, their tangents and midpoints. -/
theorem edge_data {s : SimplexCell (Fin 2 → ℝ)} (hs : ProperSimplex ℝ s) {e : ℕ} {t : List ℕ} (h : HasEntity s.topo 1 e t) :
    ∃ a c, t = [a, c] ∧ a ≠ c ∧ a < 3 ∧ c < 3 ∧ edgeTangent s e = some (s.v c - s.v a) ∧ s.v c - s.v a ≠ 0 := by
  obtain ⟨τ, h1, h2, h3, h4⟩ := entity_tuple hs h
  have hac : τ 0 ≠ τ 1 := fun h => absurd (h1 h) (by decide)
  refine ⟨τ 0, τ 1, ?_, hac, h2 0, h2 1, edgeTangent_ref τ h4, ?_⟩
  · rw [h3]; simp [List.ofFn_succ]
  · rw [sub_ne_zero]
    intro hv
    have := (proper_independent hs).injective (a₁ := ⟨τ 1, h2 1⟩) (a₂ := ⟨τ 0, h2 0⟩) hv
    exact hac (Fin.mk.inj this).symm

theorem edgeMid_eq (s : SimplexCell (Fin 2 → ℝ)) (a c : ℕ) : edgeMid s [a, c] = s.v a + (1 / 2 : ℝ) • (s.v c - s.v a) := by
  unfold edgeMid
  funext j
  simp
  ring

theorem edgeMid_on (s : SimplexCell (Fin 2 → ℝ)) {a c : ℕ} (hac : a ≠ c) : OnEntity s [a, c] (edgeMid s [a, c]) :=
  (onEntity_pair s hac _).2 ⟨_, edgeMid_eq s a c⟩

/-- A quadratic polynomial that vanishes at the ends and the midpoint of an edge vanishes on it. -/
theorem quadratic_edge {s : SimplexCell (Fin 2 → ℝ)} {a c : ℕ} (hac : a ≠ c) (p : MvPolynomial (Fin 2) ℝ) (hp : p.totalDegree ≤ 2)
    (h0 : eval (s.v a) p = 0) (h1 : eval (s.v c) p = 0) (hm : eval (edgeMid s [a, c]) p = 0) :
    ∀ x, OnEntity s [a, c] x → eval x p = 0 := by
  intro x hx
  obtain ⟨r, rfl⟩ := (onEntity_pair s hac x).1 hx
  refine edge_zero (s.v a) (s.v c - s.v a) p 2 1 2 (by norm_num) hp (fun j hj => ?_) (fun j hj => ?_) (fun i hi hi2 => ?_) (by norm_num) r
  · obtain rfl : j = 0 := by omega
    exact h0
  · obtain rfl : j = 0 := by omega
    rw [add_sub_cancel]; exact h1
  · obtain rfl : i = 1 := by omega
    rw [edgeMid_eq] at hm
    simpa using hm

/-- A polynomial of degree one that vanishes at the ends of an edge vanishes at the midpoint. -/
theorem affine_mid {s : SimplexCell (Fin 2 → ℝ)} {a c : ℕ} (p : MvPolynomial (Fin 2) ℝ) (hp : p.totalDegree ≤ 1)
    (h0 : eval (s.v a) p = 0) (h1 : eval (s.v c) p = 0) : eval (edgeMid s [a, c]) p = 0 := by
  have h := affine_comb p hp ![1 / 2, 1 / 2] ![s.v a, s.v c] (by norm_num)
  have e : ∑ i : Fin 2, (![1 / 2, 1 / 2] : Fin 2 → ℝ) i • (![s.v a, s.v c] : Fin 2 → Fin 2 → ℝ) i = edgeMid s [a, c] := by
    rw [Fin.sum_univ_two, edgeMid_eq]
    funext j
    simp
    ring
  rw [e, Fin.sum_univ_two] at h
  simp only [Matrix.cons_val_zero, Matrix.cons_val_one, h0, h1, mul_zero, add_zero] at h
  exact h

theorem onEntity_first (s : SimplexCell (Fin 2 → ℝ)) {a c : ℕ} (hac : a ≠ c) : OnEntity s [a, c] (s.v a) :=
  (onEntity_pair s hac _).2 ⟨0, by simp⟩

theorem onEntity_second (s : SimplexCell (Fin 2 → ℝ)) {a c : ℕ} (hac : a ≠ c) : OnEntity s [a, c] (s.v c) :=
  (onEntity_pair s hac _).2 ⟨1, by simp⟩

/-- A plane vector with no component along the rotated `τ` is a multiple of `τ`. -/
private theorem parallel {τ u : Fin 2 → ℝ} (hτ : τ ≠ 0) (h : τ 1 * u 0 - τ 0 * u 1 = 0) :
    ∃ c : ℝ, ∀ j, u j = c * τ j := by
  have hpos : τ 0 ^ 2 + τ 1 ^ 2 ≠ 0 := by
    intro hc
    apply hτ
    funext j
    fin_cases j
    · show τ 0 = 0; nlinarith [sq_nonneg (τ 0), sq_nonneg (τ 1)]
    · show τ 1 = 0; nlinarith [sq_nonneg (τ 0), sq_nonneg (τ 1)]
  refine ⟨(u 0 * τ 0 + u 1 * τ 1) / (τ 0 ^ 2 + τ 1 ^ 2), fun j => ?_⟩
  fin_cases j
  · show u 0 = _ * τ 0
    field_simp
    linear_combination τ 1 * h
  · show u 1 = _ * τ 1
    field_simp
    linear_combination -τ 0 * h

/-- The linear interpolant at the vertices. -/
private theorem interpolant {s : SimplexCell (Fin 2 → ℝ)} (hs : ProperSimplex ℝ s) (f : MvPolynomial (Fin 2) ℝ) :
    ∃ q : MvPolynomial (Fin 2) ℝ, q.totalDegree ≤ 1 ∧ ∀ i < 3, eval (s.v i) q = eval (s.v i) f := by
  obtain ⟨g, b, hb⟩ := baryForms_exist _ (proper_independent hs)
  refine ⟨∑ i : Fin 3, C (eval (s.v i) f) * linForm (g i) (b i), ?_, fun i hi => ?_⟩
  · refine totalDegree_finsetSum_le fun i _ => (totalDegree_mul _ _).trans ?_
    rw [totalDegree_C, zero_add]
    exact linForm_degree _ _
  · rw [map_sum, Finset.sum_eq_single (⟨i, hi⟩ : Fin 3)]
    · have := hb.at_vertex ⟨i, hi⟩ ⟨i, hi⟩
      rw [map_mul, eval_C, this, if_pos rfl, mul_one]
    · intro j _ hj
      have := hb.at_vertex j ⟨i, hi⟩
      rw [map_mul, eval_C, this, if_neg hj, mul_zero]
    · simp

/-- Unisolvence: zero normal components on the edges and zero tangential components at the midpoints. -/
theorem bdfm_zero {s : SimplexCell (Fin 2 → ℝ)} (hs : ProperSimplex ℝ s) (hnum : NumberedSimplex s) {nrm : ℕ → Option (Fin 2 → ℝ)}
    (hn : FacetNormals s nrm) {w : Fin 2 → MvPolynomial (Fin 2) ℝ} (hw : ∀ j, (w j).totalDegree ≤ 2) (hz : NormalZero s nrm w)
    (ht : ∀ e t τ, HasEntity s.topo 1 e t → edgeTangent s e = some τ → ∑ j, τ j * eval (edgeMid s t) (w j) = 0) : w = 0 := by
  obtain ⟨g, b, hb⟩ := baryForms_exist _ (proper_independent hs)
  have hv : ∀ i : Fin 3, ∀ j, eval (s.v i) (w j) = 0 := by
    intro i
    have h1 : ∀ k : Fin 3, k ≠ i → ∑ j, g k j * eval (s.v i) (w j) = 0 := by
      intro k hk
      have := normalZero_bary (by norm_num) hs hn hb hz k (s.v i) (by
        have := hb.at_vertex k i
        rwa [if_neg hk] at this)
      rwa [eval_dotC] at this
    have hsum : ∑ k : Fin 3, ∑ j, g k j * eval (s.v i) (w j) = 0 := by
      have e1 := hb.sum_one fun j => eval (s.v i) (w j)
      have e0 := hb.sum_one 0
      simp only [eval_linForm, Finset.sum_add_distrib, Pi.zero_apply, mul_zero, Finset.sum_const_zero, add_zero] at e1 e0
      linarith
    have h2 : ∀ k : Fin 3, ∑ j, g k j * eval (s.v i) (w j) = 0 := by
      intro k
      by_cases hk : k = i
      · rw [hk]
        rw [Finset.sum_eq_single i (fun k _ hk => h1 k hk) (by simp)] at hsum
        exact hsum
      · exact h1 k hk
    have h3 := hb.vector fun j => eval (s.v i) (w j)
    simp only [h2, zero_smul, Finset.sum_const_zero] at h3
    intro j
    exact (congrFun h3 j).symm
  have hm : ∀ e t, HasEntity s.topo 1 e t → ∀ j, eval (edgeMid s t) (w j) = 0 := by
    intro e t h
    obtain ⟨a, c, rfl, hac, ha, hc, h1, h2⟩ := edge_data hs h
    obtain ⟨n, n1, n2, n3⟩ := hn e _ h
    have e1 := hz e _ n h n1 _ (edgeMid_on s hac)
    have e2 := ht e _ _ h h1
    have e3 := n3 c (by simp) a (by simp)
    rw [Fin.sum_univ_two] at e1 e2 e3
    simp only [Pi.sub_apply] at e2
    have hpos : n 0 ^ 2 + n 1 ^ 2 ≠ 0 := by
      intro hc
      apply n2
      funext j
      fin_cases j
      · show n 0 = 0; nlinarith [sq_nonneg (n 0), sq_nonneg (n 1)]
      · show n 1 = 0; nlinarith [sq_nonneg (n 0), sq_nonneg (n 1)]
    have hτ : s.v c - s.v a ≠ 0 := h2
    set τ0 := s.v c 0 - s.v a 0
    set τ1 := s.v c 1 - s.v a 1
    set u0 := eval (edgeMid s [a, c]) (w 0)
    set u1 := eval (edgeMid s [a, c]) (w 1)
    -- `u` is orthogonal to `n` and to `τ`, which is orthogonal to `n`
    have hdet : (n 0 * τ1 - n 1 * τ0) ≠ 0 := by
      intro hd
      apply hτ
      have f0 : τ0 * (n 0 ^ 2 + n 1 ^ 2) = 0 := by linear_combination n 0 * e3 - n 1 * hd
      have f1 : τ1 * (n 0 ^ 2 + n 1 ^ 2) = 0 := by linear_combination n 1 * e3 + n 0 * hd
      funext j
      fin_cases j
      · exact (mul_eq_zero.1 f0).resolve_right hpos
      · exact (mul_eq_zero.1 f1).resolve_right hpos
    have f0 : u0 * (n 0 * τ1 - n 1 * τ0) = 0 := by linear_combination τ1 * e1 - n 1 * e2
    have f1 : u1 * (n 0 * τ1 - n 1 * τ0) = 0 := by linear_combination n 0 * e2 - τ0 * e1
    intro j
    fin_cases j
    · exact (mul_eq_zero.1 f0).resolve_right hdet
    · exact (mul_eq_zero.1 f1).resolve_right hdet
  funext j
  exact quadratic_zero hs hnum (w j) (hw j) (fun i hi => hv ⟨i, hi⟩ j) fun e t h => hm e t h j

/-- The tangential edge fields. -/
noncomputable def edgeField (τ : Fin 2 → ℝ) (b : MvPolynomial (Fin 2) ℝ) : Fin 2 → MvPolynomial (Fin 2) ℝ := fun c => C (τ c) * b

/-- What the edge functions satisfy. -/
structure EdgeFunctions (s : SimplexCell (Fin 2 → ℝ)) (τ : Fin 3 → Fin 2 → ℝ) (b : Fin 3 → MvPolynomial (Fin 2) ℝ) : Prop where
  tangent : ∀ e : Fin 3, edgeTangent s e = some (τ e)
  degree : ∀ e, (b e).totalDegree ≤ 2
  vertex : ∀ e, ∀ i < 3, eval (s.v i) (b e) = 0
  mid : ∀ (e : Fin 3) (f : ℕ) t, HasEntity s.topo 1 f t → eval (edgeMid s t) (b e) = if f = (e : ℕ) then 1 else 0

theorem bdfm_space_iff {s : SimplexCell (Fin 2 → ℝ)} (hs : ProperSimplex ℝ s) (hnum : NumberedSimplex s) {τ : Fin 3 → Fin 2 → ℝ}
    {b : Fin 3 → MvPolynomial (Fin 2) ℝ} (hb : EdgeFunctions s τ b) (w : Fin 2 → MvPolynomial (Fin 2) ℝ) :
    IsBDFM s w ↔ ∃ (q : Fin 2 → MvPolynomial (Fin 2) ℝ) (c : Fin 3 → ℝ), (∀ j, (q j).totalDegree ≤ 1) ∧
      w = q + ∑ e, c e • edgeField (τ e) (b e) := by
  have hedge : ∀ e : Fin 3, ∃ t, HasEntity s.topo 1 e t := fun e => facet_exists (D := 2) le_rfl hnum e.2
  choose T hT using hedge
  have hlt : ∀ e t, HasEntity s.topo 1 e t → e < 3 := fun e t h => by
    have := ((hnum.1 1 (by norm_num)).2 e).1 ⟨t, h⟩
    simpa using this
  constructor
  · rintro ⟨h1, h2⟩
    choose q q1 q2 using fun j => interpolant hs (w j)
    have key : ∀ e : Fin 3, ∃ c : ℝ, ∀ j, eval (edgeMid s (T e)) (w j - q j) = c * τ e j := by
      intro e
      obtain ⟨a, c, hac', hac, ha, hc, t1, t2⟩ := edge_data hs (hT e)
      rw [hb.tangent, Option.some.injEq] at t1
      obtain ⟨p, p1, p2⟩ := h2 e (T e) (hT e) ![τ e 1, -τ e 0] (by
        rw [hac']
        have hτ0 : τ e 0 = s.v c 0 - s.v a 0 := by rw [t1]; rfl
        have hτ1 : τ e 1 = s.v c 1 - s.v a 1 := by rw [t1]; rfl
        intro x hx y hy
        rw [Fin.sum_univ_two]
        simp only [List.mem_cons, List.not_mem_nil, or_false] at hx hy
        rcases hx with rfl | rfl <;> rcases hy with rfl | rfl <;> simp [hτ0, hτ1] <;> ring)
      rw [hac'] at p2
      have hz := affine_mid (s := s) (a := a) (c := c) (p - (C (τ e 1) * q 0 - C (τ e 0) * q 1)) (by
        refine (totalDegree_sub _ _).trans (max_le p1 ((totalDegree_sub _ _).trans (max_le ?_ ?_))) <;>
          refine (totalDegree_mul _ _).trans ?_ <;> rw [totalDegree_C, zero_add] <;> exact q1 _) (by
        have := p2 _ (onEntity_first s hac)
        rw [Fin.sum_univ_two] at this
        simp only [Matrix.cons_val_zero, Matrix.cons_val_one] at this
        simp only [map_sub, map_mul, eval_C, q2 _ a ha]
        linarith) (by
        have := p2 _ (onEntity_second s hac)
        rw [Fin.sum_univ_two] at this
        simp only [Matrix.cons_val_zero, Matrix.cons_val_one] at this
        simp only [map_sub, map_mul, eval_C, q2 _ c hc]
        linarith)
      have hm := p2 _ (edgeMid_on s hac)
      rw [Fin.sum_univ_two] at hm
      simp only [Matrix.cons_val_zero, Matrix.cons_val_one] at hm
      simp only [map_sub, map_mul, eval_C] at hz
      obtain ⟨r, hr⟩ := parallel (τ := τ e) (u := fun j => eval (edgeMid s [a, c]) (w j - q j)) (by rw [t1]; exact t2) (by
        simp only [map_sub]
        linear_combination hm + hz)
      refine ⟨r, fun j => ?_⟩
      rw [hac']
      exact hr j
    choose c hc using key
    refine ⟨q, c, q1, ?_⟩
    funext j
    rw [← sub_eq_zero]
    have happ : (q + ∑ e, c e • edgeField (τ e) (b e)) j = q j + ∑ e, C (c e * τ e j) * b e := by
      rw [Pi.add_apply, Finset.sum_apply]
      congr 1
      refine Finset.sum_congr rfl fun e _ => ?_
      rw [Pi.smul_apply, edgeField, smul_eq_C_mul, C_mul, mul_assoc]
    rw [happ]
    refine quadratic_zero hs hnum _ ?_ (fun i hi => ?_) fun e t h => ?_
    · refine (totalDegree_sub _ _).trans (max_le (h1 j) ((totalDegree_add _ _).trans (max_le ((q1 j).trans (by norm_num)) ?_)))
      refine totalDegree_finsetSum_le fun e _ => (totalDegree_mul _ _).trans ?_
      rw [totalDegree_C, zero_add]; exact hb.degree e
    · simp only [map_sub, map_add, map_sum, map_mul, eval_C, hb.vertex _ i hi, q2 j i hi, mul_zero, Finset.sum_const_zero]
      ring
    · have he := hlt e t h
      have hte : t = T ⟨e, he⟩ := hasEntity_unique h (hT ⟨e, he⟩)
      have := hc ⟨e, he⟩ j
      rw [← hte, map_sub] at this
      simp only [map_sub, map_add, map_sum, map_mul, eval_C, hb.mid _ e t h]
      rw [Finset.sum_eq_single (⟨e, he⟩ : Fin 3)]
      · rw [if_pos rfl, mul_one, ← this]; ring
      · intro f _ hf
        rw [if_neg, mul_zero]
        intro hef
        exact hf (Fin.ext hef.symm)
      · simp
  · rintro ⟨q, c, q1, rfl⟩
    have happ : ∀ j, (q + ∑ e, c e • edgeField (τ e) (b e)) j = q j + ∑ e, C (c e * τ e j) * b e := by
      intro j
      rw [Pi.add_apply, Finset.sum_apply]
      congr 1
      refine Finset.sum_congr rfl fun e _ => ?_
      rw [Pi.smul_apply, edgeField, smul_eq_C_mul, C_mul, mul_assoc]
    refine ⟨fun j => ?_, fun f t h n hn => ?_⟩
    · rw [happ]
      refine (totalDegree_add _ _).trans (max_le ((q1 j).trans (by norm_num)) ?_)
      refine totalDegree_finsetSum_le fun e _ => (totalDegree_mul _ _).trans ?_
      rw [totalDegree_C, zero_add]; exact hb.degree e
    · refine ⟨∑ j, C (n j) * q j, ?_, fun x hx => ?_⟩
      · refine totalDegree_finsetSum_le fun j _ => (totalDegree_mul _ _).trans ?_
        rw [totalDegree_C, zero_add]; exact q1 j
      · obtain ⟨a, c', rfl, hac, ha, hc', t1, -⟩ := edge_data hs h
        have hnτ : ∀ e : Fin 3, (∑ j, n j * τ e j) * eval x (b e) = 0 := by
          intro e
          by_cases hef : f = (e : ℕ)
          · rw [hef, hb.tangent, Option.some.injEq] at t1
            have := hn c' (by simp) a (by simp)
            rw [t1]
            simp only [Pi.sub_apply]
            rw [this, zero_mul]
          · rw [quadratic_edge hac (b e) (hb.degree e) (hb.vertex e a ha) (hb.vertex e c' hc')
              (by rw [hb.mid e f _ h, if_neg hef]) x hx, mul_zero]
        simp only [happ, map_add, map_sum, map_mul, eval_C, mul_add, Finset.sum_add_distrib]
        have : ∑ j, n j * ∑ e, c e * τ e j * eval x (b e) = ∑ e, c e * ((∑ j, n j * τ e j) * eval x (b e)) := by
          simp only [Finset.mul_sum, Finset.sum_mul]
          rw [Finset.sum_comm]
          exact Finset.sum_congr rfl fun e _ => Finset.sum_congr rfl fun j _ => by ring
        rw [this]
        simp only [hnτ, mul_zero, Finset.sum_const_zero, add_zero]

private theorem edgeField_sum {τ : Fin 3 → Fin 2 → ℝ} {b : Fin 3 → MvPolynomial (Fin 2) ℝ} (c : Fin 3 → ℝ) (j : Fin 2) (x : Fin 2 → ℝ) :
    eval x ((∑ e, c e • edgeField (τ e) (b e)) j) = ∑ e, c e * (τ e j * eval x (b e)) := by
  rw [Finset.sum_apply, map_sum]
  refine Finset.sum_congr rfl fun e _ => ?_
  rw [Pi.smul_apply, edgeField, smul_eval, map_mul, eval_C]

private theorem edgeField_mid {s : SimplexCell (Fin 2 → ℝ)} {τ : Fin 3 → Fin 2 → ℝ}
    {b : Fin 3 → MvPolynomial (Fin 2) ℝ} (hb : EdgeFunctions s τ b) (c : Fin 3 → ℝ) (e : Fin 3) {t : List ℕ} (h : HasEntity s.topo 1 e t)
    (j : Fin 2) : eval (edgeMid s t) ((∑ e, c e • edgeField (τ e) (b e)) j) = c e * τ e j := by
  rw [edgeField_sum, Finset.sum_eq_single e]
  · rw [hb.mid e e t h, if_pos rfl, mul_one]
  · intro f _ hf
    rw [hb.mid f e t h, if_neg, mul_zero, mul_zero]
    exact fun hef => hf (Fin.ext hef.symm)
  · simp

/-- The nine fields the space is spanned by are linearly independent. -/
theorem bdfm_fields {s : SimplexCell (Fin 2 → ℝ)} (hs : ProperSimplex ℝ s) (hnum : NumberedSimplex s) {τ : Fin 3 → Fin 2 → ℝ}
    {b : Fin 3 → MvPolynomial (Fin 2) ℝ} (hb : EdgeFunctions s τ b) {v : Fin (2 + 1) → Fin 2 → ℝ} {κ : ℝ} {φ : ℕ → MvPolynomial (Fin 2) ℝ}
    (hφ : OrthoSeq v κ φ) :
    LinearIndependent ℝ (Sum.elim (fun t : Fin 2 × Fin ((1 + 2).choose 2) => unitField t.1 (φ t.2)) fun e => edgeField (τ e) (b e)) ∧
    ∀ w, w ∈ Submodule.span ℝ (Set.range (Sum.elim (fun t : Fin 2 × Fin ((1 + 2).choose 2) => unitField t.1 (φ t.2))
      fun e => edgeField (τ e) (b e))) ↔ IsBDFM s w := by
  have hedge : ∀ e : Fin 3, ∃ t, HasEntity s.topo 1 e t := fun e => facet_exists (D := 2) le_rfl hnum e.2
  choose T hT using hedge
  have hlt : ∀ e t, HasEntity s.topo 1 e t → e < 3 := fun e t h => by
    have := ((hnum.1 1 (by norm_num)).2 e).1 ⟨t, h⟩
    simpa using this
  constructor
  · refine (hφ.vec_indep 1).sum_type ?_ ?_
    · rw [Fintype.linearIndependent_iff]
      intro c hc e
      obtain ⟨a, c', -, -, -, -, t1, t2⟩ := edge_data hs (hT e)
      rw [hb.tangent, Option.some.injEq] at t1
      obtain ⟨j, hj⟩ := Function.ne_iff.1 t2
      have := edgeField_mid hb c e (hT e) j
      rw [hc, Pi.zero_apply, map_zero] at this
      refine (mul_eq_zero.1 this.symm).resolve_right ?_
      rw [t1]; exact hj
    · rw [Submodule.disjoint_def]
      intro w h1 h2
      rw [hφ.vec_span, mem_vecP] at h1
      obtain ⟨c, rfl⟩ := (Submodule.mem_span_range_iff_exists_fun ℝ).1 h2
      funext j
      have hv : ∀ i < 3, eval (s.v i) ((∑ e, c e • edgeField (τ e) (b e)) j) = 0 := by
        intro i hi
        rw [edgeField_sum]
        exact Finset.sum_eq_zero fun e _ => by rw [hb.vertex e i hi, mul_zero, mul_zero]
      refine quadratic_zero hs hnum _ ((h1 j).trans (by norm_num)) hv fun e t h => ?_
      obtain ⟨a, c', rfl, -, ha, hc, -, -⟩ := edge_data hs h
      exact affine_mid _ (h1 j) (hv a ha) (hv c' hc)
  · intro w
    rw [Set.Sum.elim_range, Submodule.span_union, hφ.vec_span, Submodule.mem_sup, bdfm_space_iff hs hnum hb]
    constructor
    · rintro ⟨q, h1, z, h2, rfl⟩
      obtain ⟨c, rfl⟩ := (Submodule.mem_span_range_iff_exists_fun ℝ).1 h2
      exact ⟨q, c, mem_vecP.1 h1, rfl⟩
    · rintro ⟨q, c, h1, rfl⟩
      exact ⟨q, mem_vecP.2 h1, _, (Submodule.mem_span_range_iff_exists_fun ℝ).2 ⟨c, rfl⟩, rfl⟩

/-- The three pairs of an edge and its dof. -/
private theorem edge_pairs {s : SimplexCell (Fin 2 → ℝ)} (hs : ProperSimplex ℝ s) {S : PolySet ℝ (Fin 2 → ℝ) ((2 + 2).choose 2) ((2 + 2).choose 2) Unit}
    (m1 : onPolynomialSet s 2 = some S) {el : PolySet ℝ (Fin 2 → ℝ) ((2 + 2).choose 2) ((2 + 2).choose 2) Unit} {ids : EntityIds ℕ}
    {es : Dict ℕ (List ℕ)} {d : Fin 3 → Fin ((2 + 2).choose 2)} (l1 : lagrangeElement s 2 = some (el, ids)) (l2 : Dict.get? ids 1 = some es)
    (l3 : ∀ p, p ∈ es ↔ ∃ e : Fin 3, p = ((e : ℕ), [((d e : Fin ((2 + 2).choose 2)) : ℕ)])) :
    (es.flatMap (fun (p : ℕ × List ℕ) => p.2.map fun (dof : ℕ) => (p.1, dof))).length = 3 := by
  have hnd : (es.map fun p => p.1).Nodup := by
    obtain ⟨nodes, ids', d1, -⟩ := (lagrange_num_nodes (K := ℝ) s hs.2.1 hs.2.2.1 2 (by norm_num) (by rw [hs.1]; norm_num))
    have e : ids' = ids := by
      unfold lagrangeElement at l1
      simp only [m1, d1, Option.bind_eq_bind, Option.bind_some, Option.bind_eq_some_iff, Option.some.injEq, Prod.mk.injEq] at l1
      obtain ⟨_, -, -, h⟩ := l1
      exact h
    have hwf : Dict.WF es := (lagrange_ids_wf d1).2 _ (Dict.mem_of_get? (by rw [e]; exact l2))
    exact hwf
  have hone : ∀ q ∈ es, (q.2.map fun (dof : ℕ) => (q.1, dof)).length = 1 := by
    intro q hq
    obtain ⟨e, rfl⟩ := (l3 q).1 hq
    rfl
  have hl : (es.flatMap (fun (p : ℕ × List ℕ) => p.2.map fun (dof : ℕ) => (p.1, dof))).length = es.length := by
    rw [List.length_flatMap, List.map_congr_left hone]
    simp
  have hset : (es.map fun p => p.1).toFinset = Finset.range 3 := by
    ext i
    rw [List.mem_toFinset, List.mem_map, Finset.mem_range]
    constructor
    · rintro ⟨q, hq, rfl⟩
      obtain ⟨e, rfl⟩ := (l3 q).1 hq
      exact e.2
    · intro hi
      exact ⟨_, (l3 _).2 ⟨⟨i, hi⟩, rfl⟩, rfl⟩
  have := List.toFinset_card_of_nodup hnd
  rw [hset, Finset.card_range, List.length_map] at this
  rw [hl, ← this]

private theorem edge_row {N m : ℕ} (φ : ℕ → MvPolynomial (Fin 2) ℝ) (τ : Fin 2 → ℝ) (el : PolySet ℝ (Fin 2 → ℝ) N m Unit) (i : Fin m) :
    rowField φ N (fun c l => τ c * el.coeffs i () l) = edgeField τ (el.member (fun l : Fin N => φ l) i ()) := by
  funext j
  rw [rowField_apply, edgeField, PolySet.member, Finset.mul_sum]
  refine Finset.sum_congr rfl fun l _ => ?_
  rw [smul_eq_C_mul, C_mul, mul_assoc]

private theorem edge_rows {N m : ℕ} (τ : Fin 3 → Fin 2 → ℝ) (el : PolySet ℝ (Fin 2 → ℝ) N m Unit) (d : Fin 3 → Fin m) :
    ∃ row : ℕ × ℕ → Fin 2 → Fin N → ℝ, ∀ e : Fin 3, row ((e : ℕ), ((d e : Fin m) : ℕ)) = fun c l => τ e c * el.coeffs (d e) () l :=
  ⟨fun p => if h : p.1 < 3 then fun c l => τ ⟨p.1, h⟩ c * el.coeffs (d ⟨p.1, h⟩) () l else 0, fun e => by
    beta_reduce; rw [dif_pos e.2]⟩

/-- The rows `BDFMSpace` hands to `polynomial_set_union_normalized`. -/
theorem bdfm_rows_spec {s : SimplexCell (Fin 2 → ℝ)} (hs : ProperSimplex ℝ s) (hnum : NumberedSimplex s)
    {κ : ℝ} (φ : ℕ → MvPolynomial (Fin 2) ℝ) (ht : ExpTabulates 2 2 (fun i : Fin (2 + 1) => s.v i) φ)
    (hφ : OrthoSeq (fun i : Fin (2 + 1) => s.v i) κ φ) :
    ∃ mats A B τ b, onPolynomialSet s 2 = some (onScalarSet ((2 + 2).choose 2) 2 (expTab s.verts 2) mats) ∧
      BaseSpec (fun i : Fin ((2 + 2).choose 2) => φ i) (expTab s.verts 2) ∧ DmatSpec (fun i : Fin ((2 + 2).choose 2) => φ i) mats ∧
      bdfmRows 2 s = some (A, B) ∧ EdgeFunctions s τ b ∧
      B = ((List.range 2).flatMap fun p => (List.range 3).map fun k => unitRow 2 ((2 + 2).choose 2) p k) ∧
      A.length = 3 ∧
      (∀ x ∈ A, ∃ e, rowField φ ((2 + 2).choose 2) x = edgeField (τ e) (b e)) ∧
      ∀ e, ∃ x ∈ A, rowField φ ((2 + 2).choose 2) x = edgeField (τ e) (b e) := by
  have h2 : HierarchicalBasis 2 2 φ := fun k _ => ⟨hφ.indep k, hφ.span k⟩
  obtain ⟨mats, m1, m2, m3⟩ := on_set_of_table (Or.inr (Or.inl rfl)) s hs (fun h => by omega) 2 φ ht h2
  have hdeg : ∀ i : Fin ((2 + 2).choose 2), (φ i).totalDegree ≤ 2 := fun i => hφ.degree (n := 2) i.2
  have hli : LinearIndependent ℝ (fun i : Fin ((2 + 2).choose 2) => φ i) := hφ.indep 2
  obtain ⟨el, ids, es, d, l1, l2, l3, l4, l5, l6⟩ := lagrange_edges hs hnum hli hdeg mats m1 m2 m3
  have hedge : ∀ e : Fin 3, ∃ t, HasEntity s.topo 1 e t := fun e => facet_exists (D := 2) le_rfl hnum e.2
  choose T hT using hedge
  have htan : ∀ e : Fin 3, ∃ τ, edgeTangent s e = some τ := fun e => by
    obtain ⟨a, c, -, -, -, -, h, -⟩ := edge_data hs (hT e)
    exact ⟨_, h⟩
  choose τ hτ using htan
  have hpairs : ∀ p, p ∈ es.flatMap (fun (p : ℕ × List ℕ) => p.2.map fun (dof : ℕ) => (p.1, dof)) ↔
      ∃ e : Fin 3, p = ((e : ℕ), ((d e : Fin ((2 + 2).choose 2)) : ℕ)) := by
    intro p
    rw [List.mem_flatMap]
    constructor
    · rintro ⟨q, hq, hp⟩
      obtain ⟨e, rfl⟩ := (l3 q).1 hq
      simp only [List.map_cons, List.map_nil, List.mem_singleton] at hp
      exact ⟨e, hp⟩
    · rintro ⟨e, rfl⟩
      exact ⟨_, (l3 _).2 ⟨e, rfl⟩, by simp⟩
  have hlen := edge_pairs hs m1 l1 l2 l3
  set P := es.flatMap (fun (p : ℕ × List ℕ) => p.2.map fun (dof : ℕ) => (p.1, dof)) with hP
  obtain ⟨row, hrow⟩ := edge_rows τ el d
  have hfield : ∀ e : Fin 3, rowField φ _ (row ((e : ℕ), ((d e : Fin _) : ℕ))) = edgeField (τ e) (el.member _ (d e) ()) :=
    fun e => (congrArg _ (hrow e)).trans (edge_row φ (τ e) el (d e))
  refine ⟨mats, P.map row, _, τ, fun e => el.member _ (d e) (), m1, m2, m3, ?_,
    ⟨hτ, l4, l5, l6⟩, rfl, ?_, ?_, ?_⟩
  · unfold bdfmRows
    rw [if_neg (by simp)]
    have hb : ([0, 1, 2, 6, 7, 8] : List ℕ) = blockIndices 2 ((2 + 2).choose 2) 0 3 := by decide
    have ht := takeRows_blocks ((2 + 2).choose 2) 2 0 3 (by decide)
    rw [hb, ht]
    simp only [Option.bind_eq_bind, Option.bind_some, l1]
    rw [show (2 - 1 : ℕ) = 1 from rfl, l2, Option.bind_some, ← hP, mapM_some_map P _ row]
    · simp only [Option.bind_some, Nat.sub_zero, Nat.zero_add]
    · intro p hp
      obtain ⟨e, rfl⟩ := (hpairs p).1 hp
      rw [hτ, Option.bind_some, dif_pos (d e).2, hrow]
  · rw [List.length_map, hlen]
  · intro x hx
    obtain ⟨p, hp, rfl⟩ := List.mem_map.1 hx
    obtain ⟨e, rfl⟩ := (hpairs p).1 hp
    exact ⟨e, hfield e⟩
  · intro e
    exact ⟨_, List.mem_map.2 ⟨_, (hpairs _).2 ⟨e, rfl⟩, rfl⟩, hfield e⟩

theorem edge_det_ne {D : ℕ} {v : Fin (D + 1) → Fin D → ℝ} (hv : AffineIndependent ℝ v) : (edgeMatrix v).det ≠ 0 := by
  intro h
  obtain ⟨u, hu, hz⟩ := Matrix.exists_vecMul_eq_zero_iff.2 h
  obtain ⟨g, b, hb⟩ := baryForms_exist v hv
  apply hu
  have h1 : ∀ i : Fin D, ∑ j, u j * (v i.succ j - v 0 j) = 0 := fun i => by
    have := congrFun hz i
    simpa [Matrix.vecMul, dotProduct, edgeMatrix] using this
  have h2 : ∀ l, ∑ i : Fin (D + 1), (∑ j, g i j * (Pi.single l 1 : Fin D → ℝ) j) * ∑ j, u j * v i j = u l := by
    intro l
    have := hb.vector (Pi.single l 1)
    have e : ∑ j, u j * (∑ i, (∑ j, g i j * (Pi.single l 1 : Fin D → ℝ) j) • v i) j = u l := by
      rw [this]; simp [Pi.single_apply]
    rw [← e]
    simp only [Finset.sum_apply, Pi.smul_apply, smul_eq_mul, Finset.mul_sum]
    rw [Finset.sum_comm]
    refine Finset.sum_congr rfl fun j _ => Finset.sum_congr rfl fun i _ => ?_
    ring
  have h3 : ∀ l, ∑ i : Fin (D + 1), ∑ j, g i j * (Pi.single l 1 : Fin D → ℝ) j = 0 := by
    intro l
    have e1 := hb.sum_one (Pi.single l 1)
    have e0 := hb.sum_one 0
    simp only [eval_linForm, Finset.sum_add_distrib, Pi.zero_apply, mul_zero, Finset.sum_const_zero, add_zero] at e1 e0
    linarith
  funext l
  rw [← h2 l, Pi.zero_apply]
  have h4 : ∀ i : Fin (D + 1), ∑ j, u j * v i j = ∑ j, u j * v 0 j := by
    intro i
    refine Fin.cases rfl (fun i => ?_) i
    have := h1 i
    simp only [mul_sub, Finset.sum_sub_distrib] at this
    linarith
  simp only [h4]
  rw [← Finset.sum_mul, h3, zero_mul]

/-- C59: `BDFMSpace(cell, 2)` on a triangle has nine members; they are linearly independent and span exactly the fields with quadratic components
whose normal component is linear on every edge. -/
theorem bdfm_space_spec (s : SimplexCell (Fin 2 → ℝ)) (hs : ProperSimplex ℝ s) (hnum : NumberedSimplex s)
    (svd : List (Fin 2 → Fin ((2 + 2).choose 2) → ℝ) → List ℝ × List (Fin 2 → Fin ((2 + 2).choose 2) → ℝ))
    (hsvd : ∀ A B, bdfmRows 2 s = some (A, B) → SvdOK svd (A ++ B)) :
    ∃ m S, bdfmSpace 2 svd s = some ⟨m, S⟩ ∧ S.sd = 2 ∧ m = 9 ∧
      ∃ φ : Fin ((2 + 2).choose 2) → MvPolynomial (Fin 2) ℝ,
        LinearIndependent ℝ φ ∧ Submodule.span ℝ (Set.range φ) = restrictTotalDegree (Fin 2) ℝ 2 ∧
        BaseSpec φ S.base ∧ DmatSpec φ S.dmats ∧ LinearIndependent ℝ (S.member φ) ∧
        ∀ w, w ∈ Submodule.span ℝ (Set.range (S.member φ)) ↔ IsBDFM s w := by
  have hind := proper_independent hs
  obtain ⟨φ, f1, f2⟩ := orthoSeq_exists (Or.inr (Or.inl rfl)) _ hind (edge_det_ne hind)
  obtain ⟨mats, A, B, τ, b, m1, m2, m3, m4, m5, m6, -, m7, m8⟩ := bdfm_rows_spec hs hnum φ (f1 2 (Or.inr (by omega))) f2
  obtain ⟨o1, o2⟩ := hsvd A B m4
  obtain ⟨u1, u2⟩ := union_fields (f2.indep 2) svd A B o1 o2
  obtain ⟨v1, v2⟩ := bdfm_fields hs hnum m5 f2
  have hsp : Submodule.span ℝ (rowField φ ((2 + 2).choose 2) '' {x | x ∈ A ++ B}) =
      Submodule.span ℝ (Set.range (Sum.elim (fun t : Fin 2 × Fin ((1 + 2).choose 2) => unitField t.1 (φ t.2)) fun e => edgeField (τ e) (b e))) := by
    congr 1
    ext f
    constructor
    · rintro ⟨x, hx, rfl⟩
      rcases List.mem_append.1 hx with hx | hx
      · obtain ⟨e, he⟩ := m7 x hx
        exact ⟨Sum.inr e, he.symm⟩
      · rw [m6] at hx
        simp only [List.mem_flatMap, List.mem_range, List.mem_map] at hx
        obtain ⟨p, hp, k, hk, rfl⟩ := hx
        exact ⟨Sum.inl (⟨p, hp⟩, ⟨k, hk⟩), (rowField_unitRow φ p k hp (hk.trans (by decide))).symm⟩
    · rintro ⟨t | e, rfl⟩
      · refine ⟨unitRow 2 _ t.1 t.2, List.mem_append_right _ ?_, ?_⟩
        · rw [m6]
          simp only [List.mem_flatMap, List.mem_range, List.mem_map]
          exact ⟨t.1, t.1.2, t.2, t.2.2, rfl⟩
        · rw [rowField_unitRow φ t.1 t.2 t.1.2 (t.2.2.trans (by decide))]
          rfl
      · obtain ⟨x, hx, hx2⟩ := m8 e
        exact ⟨x, List.mem_append_left _ hx, hx2⟩
  rw [hsp] at u1
  have hmem : ((PolySet.ofRows 2 (expTab s.verts 2) mats (unionRows svd A B)).member fun i : Fin ((2 + 2).choose 2) => φ i) =
      fun i => rowField φ _ ((unionRows svd A B).get i) := by
    funext i; rw [ofRows_member]
  refine ⟨(unionRows svd A B).length, PolySet.ofRows 2 (expTab s.verts 2) mats (unionRows svd A B), ?_, rfl, ?_,
    fun i => φ i, f2.indep 2, f2.span 2, m2, m3, ?_, fun w => ?_⟩
  · unfold bdfmSpace
    simp only [m4, m1, Option.bind_eq_bind, Option.bind_some]
    rfl
  · have h1 := finrank_span_eq_card u2
    rw [u1, finrank_span_eq_card v1] at h1
    simp only [Fintype.card_sum, Fintype.card_prod, Fintype.card_fin] at h1
    rw [← h1]; rfl
  · rw [hmem]; exact u2
  · rw [hmem, u1]; exact v2 w

/-- The tangential node of an edge. -/
theorem bdfm_tangents_spec {s : SimplexCell (Fin 2 → ℝ)} (hs : ProperSimplex ℝ s) {e : ℕ} {t : List ℕ} (h : HasEntity s.topo 1 e t) :
    ∃ τ, edgeTangent s e = some τ ∧ bdfmTangents s 1 e = some [pointDirectionEvaluation 2 (vecNat τ) (edgeMid s t)] := by
  obtain ⟨a, c, -, -, -, -, h1, -⟩ := edge_data hs h
  refine ⟨_, h1, ?_⟩
  unfold bdfmTangents
  have hp := edgeMid_points hs h
  rw [show (2 - 1 : ℕ) = 1 from rfl, show (2 + 1 - 1 : ℕ) = 2 from rfl, hp, h1]
  rfl

/-- The dofs of `BDFMDualSet`. -/
theorem bdfm_ids {s : SimplexCell (Fin 2 → ℝ)} (hnum : NumberedSimplex s) {ids0 : EntityIds ℕ} {n m : ℕ}
    (h0 : ∀ d e, EntityIds.at? ids0 d e = if d = 0 ∧ e < 3 then some [] else none) {N : Type} (blk : ℕ × ℕ → List N)
    (h1 : ∀ e < 3, (blk (1, e)).length = n) (h2 : (blk (2, 0)).length = m) :
    EntityBlocks s.topo (entsOf 2 1 ++ entsOf 2 2) blk ((entsOf 2 1 ++ entsOf 2 2).flatMap blk)
      (Dict.put (blockLoop (fun _ => n) (entsOf 2 1) (0, ids0)).2 2
        [(0, List.range' (blockLoop (fun _ => n) (entsOf 2 1) (0, ids0)).1 m)]) := by
  refine entityBlocks_intro blk (fun x => (blk x).length) ?_ ?_ (fun _ _ => rfl) ids0 _ ?_ ?_ ?_
  · exact ents_append_nodup (d := 2) (entsOf_nodup _ _) fun x hx h => by rw [(mem_entsOf.1 hx).1] at h; omega
  · intro x hx
    rcases List.mem_append.1 hx with h | h
    · exact ents_entity hnum (by omega) x h
    · exact ents_entity hnum le_rfl x h
  · intro d e hm hv
    rw [List.mem_append, not_or, mem_entsOf, mem_entsOf] at hm
    obtain ⟨v, hv⟩ := hv
    have hd := hnum.2 d e v hv
    have he := ((hnum.1 d hd).2 e).1 ⟨v, hv⟩
    have hlt : d = 0 := by
      by_contra hcon
      rcases (by omega : d = 1 ∨ d = 2) with rfl | rfl
      · exact hm.1 ⟨rfl, he⟩
      · exact hm.2 ⟨rfl, he⟩
    subst hlt
    rw [h0, if_pos ⟨rfl, by simpa using he⟩]
  · intro d e hv
    rw [h0, if_neg]
    rintro ⟨rfl, h4⟩
    exact hv (((hnum.1 0 (by omega)).2 e).2 (by simpa using h4))
  · intro d e
    rw [blockLoop_append, entsOf_top]
    have e1 : blockLoop (fun x => (blk x).length) (entsOf 2 1) (0, ids0) = blockLoop (fun _ => n) (entsOf 2 1) (0, ids0) := by
      refine blockLoop_congr _ _ _ (fun x hx => ?_) _
      obtain ⟨h3, h4⟩ := mem_entsOf.1 hx
      rw [← h1 x.2 (by simpa using h4), ← h3]
    rw [e1]
    have e2 := (blockLoop_spec (fun _ => n) (entsOf 2 1) (entsOf_nodup _ _) (0, ids0)).2
    generalize blockLoop (fun _ => n) (entsOf 2 1) (0, ids0) = st at e2 ⊢
    show _ = (blockStep (blk (2, 0)).length st (2, 0)).2.at? d e
    rw [EntityIds.at?_put, blockStep, setIds_at, h2]
    by_cases hd : 2 = d
    · subst hd
      rw [if_pos rfl]
      by_cases he : 0 = e
      · subst he
        rw [if_pos ⟨rfl, rfl⟩]; rfl
      · rw [if_neg (fun h => he h.2), e2, if_neg (by rw [mem_entsOf]; simp), h0, if_neg (by simp)]
        simp [Dict.get?, he]
    · rw [if_neg hd, if_neg (fun h => hd h.1)]

/-- The nodes and dofs of `BDFMDualSet`. -/
theorem bdfm_dual_spec {s : SimplexCell (Fin 2 → ℝ)} (hs : ProperSimplex ℝ s) (hnum : NumberedSimplex s) {nrm : ℕ → Option (Fin 2 → ℝ)}
    (hn : FacetNormals s nrm) :
    ∃ nodes ids, bdfmDual s nrm 1 = some (nodes, ids) ∧ nodes.length = 9 ∧ (∀ l ∈ nodes, PlainNode l) ∧
      HDivDofs s nrm (IsBDFM s) 2 3 nodes ids ∧ ∀ w, IsBDFM s w → (∀ l ∈ nodes, l.onField (fieldOf w) = 0) → w = 0 := by
  obtain ⟨F, f1, f2⟩ := facet_point_blocks (le_refl 2) hs hnum hn 1
  obtain ⟨G, g1, g2⟩ := mapM_choose 3 (fun i => bdfmTangents s 1 i) (fun e b => ∃ t τ, HasEntity s.topo 1 e t ∧ edgeTangent s e = some τ ∧
    b = [pointDirectionEvaluation 2 (vecNat τ) (edgeMid s t)]) (by
    intro e he
    obtain ⟨t, ht⟩ := facet_exists (le_refl 2) hnum he
    obtain ⟨τ, t1, t2⟩ := bdfm_tangents_spec hs ht
    exact ⟨_, t2, t, τ, ht, t1, rfl⟩) []
  have hG : ∀ e < 3, (G e).length = 1 := fun e he => by
    obtain ⟨-, t, τ, -, -, h⟩ := g2 e he
    rw [h]; rfl
  set I := ((List.range 3).map G).flatten with hI
  have hIl : I.length = 3 := by
    rw [hI, List.length_flatten, List.map_map]
    have : (List.range 3).map (List.length ∘ G) = (List.range 3).map fun _ => 1 := List.map_congr_left fun e he => hG e (List.mem_range.1 he)
    rw [this]; rfl
  have hImem : ∀ l, l ∈ I ↔ ∃ e, e < 3 ∧ l ∈ G e := by
    intro l
    rw [hI]
    simp only [List.mem_flatten, List.mem_map, List.mem_range]
    constructor
    · rintro ⟨_, ⟨e, he, rfl⟩, hl⟩; exact ⟨e, he, hl⟩
    · rintro ⟨e, he, hl⟩; exact ⟨_, ⟨e, he, rfl⟩, hl⟩
  obtain ⟨t0, ht0⟩ := facet_exists (le_refl 2) hnum (e := 0) (by omega)
  obtain ⟨pts, p1, p2, -, -⟩ := entity_points hs (by omega) (by omega) ht0 1
  obtain ⟨ids0, a1, a2⟩ := emptyLoop_spec hnum (List.range (2 - 1)) (fun d hd => by have := List.mem_range.1 hd; omega) []
  have a3 : ∀ d e, EntityIds.at? ids0 d e = if d = 0 ∧ e < 3 then some [] else none := by
    intro d e
    rw [a2]
    have : (d ∈ List.range (2 - 1) ∧ e < (2 + 1).choose (d + 1)) ↔ (d = 0 ∧ e < 3) := by
      rw [List.mem_range]
      constructor
      · rintro ⟨h1, h2⟩
        obtain rfl : d = 0 := by omega
        exact ⟨rfl, by simpa using h2⟩
      · rintro ⟨rfl, h2⟩
        exact ⟨by norm_num, by simpa using h2⟩
    rw [if_congr this rfl rfl]
    rfl
  have i2 := bdfm_ids hnum a3 (n := pts.length) (m := 3) (fun x : ℕ × ℕ => if x.1 = 2 then I else F x.2) (fun e he => by
    rw [if_neg (by norm_num), (f2 e he).1, p2]) (by rw [if_pos rfl, hIl])
  rw [show entsOf 2 1 ++ entsOf 2 2 = entsOf 2 (2 - 1) ++ entsOf 2 2 from rfl, flatMap_blocks (le_refl 2)] at i2
  have htr : ∀ w, IsBDFM s w → ∀ e t n, HasEntity s.topo (2 - 1) e t → nrm e = some n →
      ∃ p : MvPolynomial (Fin 2) ℝ, p.totalDegree ≤ 1 ∧ ∀ x, OnEntity s t x → ∑ j, n j * eval x (w j) = eval x p := by
    intro w hw e t n h hne
    obtain ⟨n', n1, n2, n3⟩ := hn e t h
    rw [hne, Option.some.injEq] at n1
    subst n1
    exact hw.2 e t h n n3
  have hfl : ∀ l, l ∈ ((List.range (2 + 1)).map F).flatten ↔ ∃ e, e < 2 + 1 ∧ l ∈ F e := by
    intro l
    simp only [List.mem_flatten, List.mem_map, List.mem_range]
    constructor
    · rintro ⟨_, ⟨e, he, rfl⟩, hl⟩; exact ⟨e, he, hl⟩
    · rintro ⟨e, he, hl⟩; exact ⟨_, ⟨e, he, rfl⟩, hl⟩
  have hdofs := hdiv_dofs (le_refl 2) hnum 1 3 (IsBDFM s) htr F f2 I hIl i2
  refine ⟨_, _, ?_, ?_, ?_, hdofs, ?_⟩
  · unfold bdfmDual
    simp only [numEnts_facets (le_refl 2) hnum, f1, a1, Option.bind_eq_bind, Option.bind_some]
    rw [show (2 + 1 : ℕ) = 3 from rfl] at *
    rw [g1]
    simp only [Option.bind_some, p1, sameLoop_spec hnum (2 - 1) pts.length (by omega), ← hI, hIl]
  · rw [List.length_append, List.length_flatten, List.map_map, hIl]
    have : (List.range (2 + 1)).map (List.length ∘ F) = (List.range (2 + 1)).map fun _ => 2 :=
      List.map_congr_left fun e he => (f2 e (List.mem_range.1 he)).1
    rw [this]; rfl
  · intro l hl
    rcases List.mem_append.1 hl with h | h
    · obtain ⟨e, he, h⟩ := (hfl l).1 h
      exact (f2 e he).2.1 l h
    · obtain ⟨e, he, h⟩ := (hImem l).1 h
      obtain ⟨-, t, τ, -, -, h2⟩ := g2 e he
      rw [h2, List.mem_singleton] at h
      rw [h]; exact point_direction_plain _ _
  · intro w hw hz
    refine bdfm_zero hs hnum hn hw.1 ?_ ?_
    · intro e t n h hne
      have he : e < 2 + 1 := by
        have := ((hnum.1 (2 - 1) (by omega)).2 e).1 ⟨t, h⟩
        simpa using this
      obtain ⟨p, p1, p2⟩ := htr w hw e t n h hne
      exact ((f2 e he).2.2 t h n hne w p p1 p2).1 fun l hl => hz l (List.mem_append_left _ ((hfl l).2 ⟨e, he, hl⟩))
    · intro e t τ h hτ
      have he : e < 3 := by
        have := ((hnum.1 1 (by omega)).2 e).1 ⟨t, h⟩
        simpa using this
      obtain ⟨-, t', τ', h1, h2, h3⟩ := g2 e he
      rw [hasEntity_unique h h1]
      rw [hτ, Option.some.injEq] at h2
      subst h2
      have := hz _ (List.mem_append_right _ ((hImem _).2 ⟨e, he, by rw [h3]; exact List.mem_singleton_self _⟩))
      rwa [point_direction_field] at this

/-- C59: `BrezziDouglasFortinMarini(cell, 2)` on a triangle is the element with nine dofs whose space is the fields with quadratic components and
linear normal components on the edges: two dofs on each edge, which determine the normal component there, and three dofs of the cell; the functions
it tabulates are the basis dual to its nodes. -/
theorem brezzi_douglas_fortin_marini_spec (s : SimplexCell (Fin 2 → ℝ)) (hs : ProperSimplex ℝ s) (hnum : NumberedSimplex s)
    {nrm : ℕ → Option (Fin 2 → ℝ)} (hn : FacetNormals s nrm)
    (svd : List (Fin 2 → Fin ((2 + 2).choose 2) → ℝ) → List ℝ × List (Fin 2 → Fin ((2 + 2).choose 2) → ℝ))
    (hsvd : ∀ A B, bdfmRows 2 s = some (A, B) → SvdOK svd (A ++ B)) :
    ∃ m el nodes ids, brezziDouglasFortinMarini 2 svd s nrm = some (⟨m, el⟩, nodes, ids) ∧ m = 9 ∧ nodes.length = m ∧
      HDivDofs s nrm (IsBDFM s) 2 3 nodes ids ∧ el.sd = 2 ∧ IsNodalElement (IsBDFM s) nodes el := by
  obtain ⟨m, S, s1, s2, s3, φ, s4, s5, s6, s7, s8, s9⟩ := bdfm_space_spec s hs hnum svd hsvd
  obtain ⟨nodes, ids, d1, d2, d3, d4, d5⟩ := bdfm_dual_spec hs hnum hn
  obtain ⟨el, e1, e0, -, -, -, -, e2⟩ := vector_element_nodal (by omega) φ S s2 s6 s7 (IsBDFM s) s8 s9 nodes (d2.trans s3.symm) (by omega) d3 d5
  refine ⟨m, el, nodes, ids, ?_, s3, d2.trans s3.symm, d4, e0, e2⟩
  unfold brezziDouglasFortinMarini
  simp only [s1, d1, e1, Option.bind_eq_bind, Option.bind_some, ne_eq, not_true_eq_false, if_false, Nat.add_one_sub_one]

/-- C59: any other degree, and any other dimension, is rejected. -/
theorem brezzi_douglas_fortin_marini_rejects {D : ℕ} (degree : ℕ)
    (svd : List (Fin D → Fin ((degree + D).choose D) → ℝ) → List ℝ × List (Fin D → Fin ((degree + D).choose D) → ℝ))
    (s : SimplexCell (Fin D → ℝ)) (nrm : ℕ → Option (Fin D → ℝ)) (h : degree ≠ 2 ∨ D ≠ 2) :
    brezziDouglasFortinMarini degree svd s nrm = none := by
  unfold brezziDouglasFortinMarini
  by_cases hd : degree = 2
  · have hD : D ≠ 2 := h.resolve_left (fun h => h hd)
    have : bdfmSpace degree svd s = none := by
      unfold bdfmSpace bdfmRows
      rw [if_pos hD]; rfl
    rw [if_neg (fun h => h hd), this]; rfl
  · rw [if_pos hd]

end
end FIAT
