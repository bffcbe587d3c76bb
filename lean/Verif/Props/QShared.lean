/-
C75: functions of two neighbouring cells on a shared entity.
-/
import Verif.Props.QConform

namespace FIAT
open MvPolynomial

/-- An affine map. -/
def affMap {n : ℕ} (M : Fin n → Fin n → ℝ) (b x : Fin n → ℝ) : Fin n → ℝ := fun i => b i + ∑ j, M i j * x j

/-- Composition of a polynomial with the map. -/
noncomputable def cubePull {n : ℕ} (M : Fin n → Fin n → ℝ) (b : Fin n → ℝ) (p : MvPolynomial (Fin n) ℝ) : MvPolynomial (Fin n) ℝ :=
  aeval (fun i => C (b i) + ∑ j, C (M i j) * X j) p

theorem eval_cubePull {n : ℕ} (M : Fin n → Fin n → ℝ) (b x : Fin n → ℝ) (p : MvPolynomial (Fin n) ℝ) :
    eval x (cubePull M b p) = eval (affMap M b x) p := by
  unfold cubePull
  induction p using MvPolynomial.induction_on with
  | C a => simp
  | add p q hp hq => rw [map_add, map_add, map_add, hp, hq]
  | mul_X p i hp =>
    rw [map_mul, map_mul, map_mul, hp, aeval_X, eval_X]
    simp [affMap]

/-- If every variable enters at most one component of the map, the map does not raise the degree in a variable. -/
theorem cubePull_degree {n k : ℕ} {M : Fin n → Fin n → ℝ} (b : Fin n → ℝ) (hM : ∀ j i i', M i j ≠ 0 → M i' j ≠ 0 → i = i')
    {p : MvPolynomial (Fin n) ℝ} (hp : ∀ i, degreeOf i p ≤ k) (j : Fin n) : degreeOf j (cubePull M b p) ≤ k := by
  classical
  unfold cubePull
  rw [p.as_sum, map_sum]
  refine (degreeOf_sum_le _ _ _).trans (Finset.sup_le fun s hs => ?_)
  rw [aeval_monomial, Finsupp.prod_fintype _ _ (fun _ => pow_zero _)]
  refine (degreeOf_mul_le _ _ _).trans ?_
  rw [algebraMap_eq, degreeOf_C, zero_add]
  refine (degreeOf_prod_le _ _ _).trans ?_
  have hc : ∀ i, degreeOf j (C (b i) + ∑ l, C (M i l) * X l : MvPolynomial (Fin n) ℝ) ≤ if M i j ≠ 0 then 1 else 0 := by
    intro i
    refine (degreeOf_add_le _ _ _).trans (max_le (by rw [degreeOf_C]; exact Nat.zero_le _) ?_)
    refine (degreeOf_sum_le _ _ _).trans (Finset.sup_le fun l _ => ?_)
    by_cases h : M i l = 0
    · rw [h, C_0, zero_mul, degreeOf_zero]; exact Nat.zero_le _
    · refine (degreeOf_C_mul_le _ _ _).trans ?_
      rw [degreeOf_X]
      by_cases hl : j = l
      · subst hl; rw [if_pos rfl, if_pos h]
      · rw [if_neg hl]; exact Nat.zero_le _
  have hi : ∀ i, degreeOf j ((C (b i) + ∑ l, C (M i l) * X l : MvPolynomial (Fin n) ℝ) ^ s i) ≤ if M i j ≠ 0 then s i else 0 := by
    intro i
    refine (degreeOf_pow_le _ _ _).trans ((Nat.mul_le_mul_left _ (hc i)).trans ?_)
    split_ifs <;> simp
  refine (Finset.sum_le_sum fun i _ => hi i).trans ?_
  by_cases hex : ∃ i, M i j ≠ 0
  · obtain ⟨i0, h0⟩ := hex
    rw [Finset.sum_eq_single i0]
    · rw [if_pos h0]; exact degreeOf_le_iff.1 (hp i0) s hs
    · intro i _ hne
      exact if_neg fun h => hne (hM j i i0 h h0)
    · intro h; exact absurd (Finset.mem_univ _) h
  · push Not at hex
    rw [Finset.sum_eq_zero fun i _ => if_neg (by rw [hex i]; simp)]
    exact Nat.zero_le _

/-- The map sends the hull of `t` to the hull of `t'`. -/
theorem affMap_hull {c : CellData ℝ} {n : ℕ} {t t' : List ℕ} {M : Fin n → Fin n → ℝ} {b : Fin n → ℝ}
    (h1 : t.map (translate t t') = t') (h2 : ∀ x ∈ t, translate t' t (translate t t' x) = x)
    (hv : ∀ x ∈ t, ∀ i : Fin n, c.coord (translate t t' x) i = b i + ∑ j, M i j * c.coord x j) {x : Fin n → ℝ} (hx : OnHull c t x) :
    OnHull c t' (affMap M b x) := by
  obtain ⟨w, w1, w2⟩ := hx
  refine ⟨fun y => w (translate t' t y), ?_, fun i => ?_⟩
  · rw [← w1]
    conv_lhs => rw [← h1]
    rw [List.map_map]
    congr 1
    exact List.map_congr_left fun x hx => by simp only [Function.comp, h1, h2 x hx]
  · conv_rhs => rw [← h1]
    rw [List.map_map]
    have e1 : (t.map ((fun a => w (translate (t.map (translate t t')) t a) * c.coord a i) ∘ translate t t')) =
        t.map fun x => w x * b i + ∑ j, M i j * (w x * c.coord x j) := by
      refine List.map_congr_left fun x hx => ?_
      simp only [Function.comp, h1, h2 x hx]
      rw [hv x hx i, mul_add, Finset.mul_sum]
      congr 1
      exact Finset.sum_congr rfl fun j _ => by ring
    rw [e1]
    have e2 : ∀ l : List ℕ, (l.map fun x => w x * b i + ∑ j, M i j * (w x * c.coord x j)).sum =
        (l.map w).sum * b i + ∑ j, M i j * (l.map fun x => w x * c.coord x j).sum := by
      intro l
      induction l with
      | nil => simp
      | cons x l ih =>
        simp only [List.map_cons, List.sum_cons, ih, mul_add, Finset.sum_add_distrib]
        ring
    rw [e2, w1, one_mul]
    unfold affMap
    congr 1
    exact Finset.sum_congr rfl fun j _ => by rw [w2 j]

section
variable {E : TabElem ℝ ℝ} {ids : EntityIds Key} {nodes : List (List ℝ)} {φ : ℕ → MvPolynomial (Fin E.sd) ℝ}
  {emb : Key → ℕ → List ℝ → Fin E.sd → ℝ} {P : Key → List (List ℝ)} {W : Key → List ℝ → List ℝ}

/-- The map commutes with the maps from the reference entities. -/
theorem affMap_emb (hW : EmbWeights E emb W) {t t' : List ℕ} {M : Fin E.sd → Fin E.sd → ℝ} {b : Fin E.sd → ℝ}
    (hv : ∀ x ∈ t, ∀ i : Fin E.sd, E.cell.coord (translate t t' x) i = b i + ∑ j, M i j * E.cell.coord x j) {d : Key} {e e' : ℕ}
    {t1 : List ℕ} (h1 : HasEntity E.cell.topo d e t1) (hs : ∀ x ∈ t1, x ∈ t)
    (h2 : HasEntity E.cell.topo d e' (t1.map (translate t t'))) {p : List ℝ} (hp : p.length = d.tupleSum) :
    affMap M b (emb d e p) = emb d e' p := by
  obtain ⟨a1, a2, a3⟩ := hW d e t1 p h1 hp
  obtain ⟨-, -, b3⟩ := hW d e' _ p h2 hp
  funext i
  rw [b3]
  unfold affMap
  simp only [a3]
  generalize W d p = w at a1 a2
  have key : ∀ (w : List ℝ) (t1 : List ℕ), w.length = t1.length → (∀ x ∈ t1, x ∈ t) →
      w.sum * b i + ∑ j, M i j * (List.zipWith (fun w a => w * E.cell.coord a j) w t1).sum =
        (List.zipWith (fun w a => w * E.cell.coord a i) w (t1.map (translate t t'))).sum := by
    intro w
    induction w with
    | nil => intro t1 _ _; simp
    | cons a w ih =>
      intro t1 hl hs
      cases t1 with
      | nil => simp at hl
      | cons y t1 =>
        simp only [List.map_cons, List.zipWith_cons_cons, List.sum_cons, mul_add, Finset.sum_add_distrib]
        rw [← ih t1 (by simpa using hl) (fun x hx => hs x (List.mem_cons_of_mem _ hx)), hv y (hs y List.mem_cons_self)]
        rw [mul_add, Finset.mul_sum, Finset.sum_congr rfl fun j _ => show M i j * (a * E.cell.coord y j) = a * (M i j * E.cell.coord y j) by ring]
        ring
  have := key w t1 a1 hs
  rw [a2, one_mul] at this
  exact this

/-- Two functions of the element agree on corresponding points of two entities exactly if their dofs agree, one by one, on the two
entities and on corresponding sub-entities. -/
theorem c0_shared (hE : IsC0Element E ids nodes φ emb) (hP : DofsPlaced E ids nodes emb P) (hW : EmbWeights E emb W) {k : ℕ}
    (hspan : SpansDeg E.dim φ fun _ => k) {d : Key} {e : ℕ} {t t' : List ℕ} (ht : HasEntity E.cell.topo d e t)
    {M : Fin E.sd → Fin E.sd → ℝ} {b : Fin E.sd → ℝ} (hM : ∀ j i i', M i j ≠ 0 → M i' j ≠ 0 → i = i')
    (hv : ∀ x ∈ t, ∀ i : Fin E.sd, E.cell.coord (translate t t' x) i = b i + ∑ j, M i j * E.cell.coord x j)
    (hsub : ∀ d1 e1 t1, HasEntity E.cell.topo d1 e1 t1 → (∀ x ∈ t1, x ∈ t) →
      ∃ e1', HasEntity E.cell.topo d1 e1' (t1.map (translate t t'))) (u u' : ℕ → ℝ) :
    (∀ d1 e1 e1' t1 l l', HasEntity E.cell.topo d1 e1 t1 → (∀ x ∈ t1, x ∈ t) →
      HasEntity E.cell.topo d1 e1' (t1.map (translate t t')) → ids.at? d1 e1 = some l → ids.at? d1 e1' = some l' → l.map u = l'.map u') ↔
    ∀ x : Fin E.sd → ℝ, OnHull E.cell t x → ∑ i ∈ Finset.range E.dim, u i * eval x (φ i) =
      ∑ i ∈ Finset.range E.dim, u' i * eval (affMap M b x) (φ i) := by
  obtain ⟨w, hw⟩ := (hspan (cubePull M b (∑ i ∈ Finset.range E.dim, C (u' i) * φ i))).1
    (cubePull_degree b hM ((hspan _).2 ⟨u', rfl⟩))
  have hwx : ∀ x, ∑ i ∈ Finset.range E.dim, u' i * eval (affMap M b x) (φ i) = ∑ i ∈ Finset.range E.dim, w i * eval x (φ i) := by
    intro x
    have := congrArg (eval x) hw
    rw [eval_cubePull, map_sum, map_sum] at this
    simpa using this
  have hval : ∀ (v : ℕ → ℝ) (i : ℕ) p, nodes[i]? = some p → ∑ j ∈ Finset.range E.dim, v j * eval (vecOf p) (φ j) = v i := by
    intro v i p hp
    have hi : i < E.dim := by rw [← hE.nodes_len.1]; exact (List.getElem?_eq_some_iff.1 hp).1
    rw [Finset.sum_eq_single i]
    · rw [hE.nodal i p hp i hi, if_pos rfl, mul_one]
    · intro j hj hji
      rw [hE.nodal i p hp j (Finset.mem_range.1 hj), if_neg (Ne.symm hji), mul_zero]
    · intro h; exact absurd (Finset.mem_range.2 hi) h
  have hlist : ∀ d1 e1 e1' t1 l l', HasEntity E.cell.topo d1 e1 t1 → (∀ x ∈ t1, x ∈ t) →
      HasEntity E.cell.topo d1 e1' (t1.map (translate t t')) → ids.at? d1 e1 = some l → ids.at? d1 e1' = some l' →
      l.map w = l'.map u' := by
    intro d1 e1 e1' t1 l l' h1 h2 h3 h4 h5
    have q1 := hP.2 d1 e1 t1 l h1 h4
    have q2 := hP.2 d1 e1' _ l' h3 h5
    rw [map_eq_forall₂] at q1 q2
    rw [map_eq_forall₂]
    have key : ∀ (Ps : List (List ℝ)) (l l' : List ℕ), (∀ p ∈ Ps, p.length = d1.tupleSum) →
        List.Forall₂ (fun i p => (nodes[i]?).map (vecOf : List ℝ → Fin E.sd → ℝ) = some (emb d1 e1 p)) l Ps →
        List.Forall₂ (fun i p => (nodes[i]?).map (vecOf : List ℝ → Fin E.sd → ℝ) = some (emb d1 e1' p)) l' Ps →
        List.Forall₂ (fun i i' => w i = u' i') l l' := by
      intro Ps
      induction Ps with
      | nil => intro l l' _ a1 a2; cases a1; cases a2; exact List.Forall₂.nil
      | cons p Ps ih =>
        intro l l' hl a1 a2
        cases a1 with
        | cons c1 c2 =>
          cases a2 with
          | cons c3 c4 =>
            refine List.Forall₂.cons ?_ (ih _ _ (fun p hp => hl p (List.mem_cons_of_mem _ hp)) c2 c4)
            obtain ⟨r, r1, r2⟩ := Option.map_eq_some_iff.1 c1
            obtain ⟨r', r1', r2'⟩ := Option.map_eq_some_iff.1 c3
            rw [← hval w _ r r1, ← hwx, r2, affMap_emb hW hv h1 h2 h3 (hl p List.mem_cons_self), ← r2', hval u' _ r' r1']
    exact key _ l l' (hP.1 d1) q1 q2
  have htr := hE.trace d e t ht fun i => u i - w i
  simp only [sub_mul, Finset.sum_sub_distrib, sub_eq_zero] at htr
  simp only [hwx]
  rw [htr]
  constructor
  · rintro h i ⟨d1, e1, t1, l, h1, h2, h3, h4⟩
    obtain ⟨e1', h5⟩ := hsub d1 e1 t1 h1 h2
    obtain ⟨l', hl'⟩ := Option.isSome_iff_exists.1 ((hE.same d1 e1').2 ⟨_, h5⟩)
    have h6 := (h d1 e1 e1' t1 l l' h1 h2 h5 h3 hl').trans (hlist d1 e1 e1' t1 l l' h1 h2 h5 h3 hl').symm
    exact List.map_inj_left.1 h6 i h4
  · intro h d1 e1 e1' t1 l l' h1 h2 h3 h4 h5
    rw [← hlist d1 e1 e1' t1 l l' h1 h2 h3 h4 h5]
    exact List.map_congr_left fun i hi => h i ⟨d1, e1, t1, l, h1, h2, h4, hi⟩

end
end FIAT
