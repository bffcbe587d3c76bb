/-
C83: continuity of the serendipity elements across the cells of a mesh.
-/
import Verif.Lemmas.SerMatch

namespace FIAT
open MvPolynomial

/-- The statement of `ContinuousAcross` for one pair of entities: two cells of a mesh share the entity `e` with vertices `t` of the one and
`e'` with vertices `t'` of the other. -/
def ContinuousOn (c : CellData ℝ) (n N : ℕ) (ids : EntityIds Key) (φ : ℕ → MvPolynomial (Fin n) ℝ) (t t' : List ℕ) (g g' : ℕ → ℕ) : Prop :=
    ∃ Θ : (Fin n → ℝ) → Fin n → ℝ, (∀ x, OnHull c t x → OnHull c t' (Θ x)) ∧ (∀ y, OnHull c t' y → ∃ x, OnHull c t x ∧ Θ x = y) ∧
      (∀ (m : ℕ) (X : ℕ → Fin m → ℝ) (F F' : Fin m → MvPolynomial (Fin n) ℝ), CubeInMesh c X F g → CubeInMesh c X F' g' →
        ∀ x, OnHull c t x → ∀ i, eval x (F i) = eval (Θ x) (F' i)) ∧
      ∀ u u' : ℕ → ℝ,
        (∀ d1 e1 e1' t1 t1' l l', HasEntity c.topo d1 e1 t1 → (∀ a ∈ t1, a ∈ t) → HasEntity c.topo d1 e1' t1' → t1.map g = t1'.map g' →
          ids.at? d1 e1 = some l → ids.at? d1 e1' = some l' → l.map u = l'.map u') ↔
        ∀ x, OnHull c t x → ∑ i ∈ Finset.range N, u i * eval x (φ i) = ∑ i ∈ Finset.range N, u' i * eval (Θ x) (φ i)

theorem continuousAcross_iff (c : CellData ℝ) (n N : ℕ) (ids : EntityIds Key) (φ : ℕ → MvPolynomial (Fin n) ℝ) :
    ContinuousAcross c n N ids φ ↔ ∀ (d : Key) (e e' : ℕ) (t t' : List ℕ) (g g' : ℕ → ℕ), HasEntity c.topo d e t →
      HasEntity c.topo d e' t' → (∀ a < c.verts.length, ∀ a' < c.verts.length, g' a = g' a' → a = a') → t.map g = t'.map g' →
      ContinuousOn c n N ids φ t t' g g' := Iff.rfl

section generic
variable {D : ℕ}

/-- The vertices of an entity include a corner and its neighbours along the free directions. -/
def SerCorner (L : List (Key × ℕ)) (es : List (SerEnt D)) (bit : ℕ → Fin D → Bool) (p : (Key × ℕ) × List ℕ) : Prop :=
  p.2.Nodup ∧ ∃ a0 ∈ p.2, (∀ i, (entOf L es p.1).1 i = none → bit a0 i = false) ∧
    (∀ i, (entOf L es p.1).1 i = none ∨ (entOf L es p.1).1 i = some (bit a0 i)) ∧
    ∀ i, (entOf L es p.1).1 i = none → ∃ a ∈ p.2, ∀ j, bit a j = if j = i then true else bit a0 j

instance (L : List (Key × ℕ)) (es : List (SerEnt D)) (bit : ℕ → Fin D → Bool) (p : (Key × ℕ) × List ℕ) :
    Decidable (SerCorner L es bit p) := by unfold SerCorner; infer_instance

/-- What the proof uses of the element: the functions `φ` are grouped by the entities as on the reference cube. -/
structure SerElt (c : CellData ℝ) (L : List (Key × ℕ)) (es : List (SerEnt D)) (bit : ℕ → Fin D → Bool) (r N : ℕ) (ids : EntityIds Key)
    (φ : ℕ → MvPolynomial (Fin D) ℝ) : Prop where
  cell : SerCell c.topo L es bit
  coord : ∀ d e t, HasEntity c.topo d e t → ∀ a ∈ t, ∀ i : Fin D, c.coord a i = serBit (bit a i)
  lt : ∀ d e t, HasEntity c.topo d e t → ∀ a ∈ t, a < c.verts.length
  names : ∀ p ∈ allEntities c.topo, ∀ p' ∈ allEntities c.topo, p'.2 = p.2 → p' = p
  part : DofsPartition ids N
  same : SameEntities c.topo ids
  block : ∀ d e t l, HasEntity c.topo d e t → ids.at? d e = some l → l.map φ = SerEnt.funcs r (entOf L es (d, e))
  indep : ∀ w : ℕ → ℝ, ∑ i ∈ Finset.range N, C (w i) * φ i = 0 → ∀ i < N, w i = 0
  corner : ∀ p ∈ allEntities c.topo, SerCorner L es bit p
  cube : CubeLike c D
  multilinear : MultilinearShared c D

variable {c : CellData ℝ} {L : List (Key × ℕ)} {es : List (SerEnt D)} {bit : ℕ → Fin D → Bool} {r N : ℕ} {ids : EntityIds Key}
  {φ : ℕ → MvPolynomial (Fin D) ℝ}

/-- A coordinate which is the same at all vertices of an entity is the same at all its points. -/
theorem SerElt.hull_coord (h : SerElt c L es bit r N ids φ) {d : Key} {e : ℕ} {t : List ℕ} (he : HasEntity c.topo d e t) {i : Fin D}
    {b : Bool} (hb : ∀ a ∈ t, bit a i = b) {x : Fin D → ℝ} (hx : OnHull c t x) : x i = serBit b := by
  obtain ⟨w, w1, w2⟩ := hx
  rw [w2 i]
  have : (t.map fun a => w a * c.coord a i) = t.map fun a => w a * serBit b :=
    List.map_congr_left fun a ha => by rw [h.coord d e t he a ha i, hb a ha]
  rw [this, List.sum_map_mul_right, w1, one_mul]

/-- The functions of an entity vanish on the entities which do not contain it. -/
theorem SerElt.vanish (h : SerElt c L es bit r N ids φ) {d d1 : Key} {e e1 : ℕ} {t t1 l : List ℕ} (he : HasEntity c.topo d e t)
    (he1 : HasEntity c.topo d1 e1 t1) (hl : ids.at? d1 e1 = some l) (hsub : ¬ t1 ⊆ t) {x : Fin D → ℝ} (hx : OnHull c t x) {i : ℕ}
    (hi : i ∈ l) : eval x (φ i) = 0 := by
  obtain ⟨j, b, h1, h2⟩ := h.cell.sub _ _ _ _ _ _ he1 he hsub
  have hm : φ i ∈ SerEnt.funcs r (entOf L es (d1, e1)) := by
    rw [← h.block d1 e1 t1 l he1 hl]; exact List.mem_map_of_mem hi
  obtain ⟨a, -, h3⟩ := List.mem_map.1 hm
  rw [← h3]
  exact serPhi_vanish _ _ _ x j b (h.hull_coord he h1 hx) h2

/-- The owner of a dof. -/
theorem SerElt.owner (h : SerElt c L es bit r N ids φ) {i : ℕ} (hi : i < N) :
    ∃ d1 e1 t1 l, HasEntity c.topo d1 e1 t1 ∧ ids.at? d1 e1 = some l ∧ i ∈ l := by
  obtain ⟨p, ⟨l, hl, hil⟩, -⟩ := h.part.2 i hi
  obtain ⟨t1, h1⟩ := (h.same p.1 p.2).1 (by rw [hl]; rfl)
  exact ⟨p.1, p.2, t1, l, h1, hl, hil⟩

/-- Two functions which agree on an entity have the same coefficients for the entity and its sub-entities. -/
theorem SerElt.determined (h : SerElt c L es bit r N ids φ) {d : Key} {e : ℕ} {t : List ℕ} (he : HasEntity c.topo d e t)
    (hfix : ∀ i b, (entOf L es (d, e)).1 i = some b → ∀ d1 e1 t1, HasEntity c.topo d1 e1 t1 → t1 ⊆ t → (entOf L es (d1, e1)).1 i = some b)
    (hpt : ∀ x : Fin D → ℝ, (∀ i b, (entOf L es (d, e)).1 i = some b → x i = serBit b) → OnHull c t x)
    {u v : ℕ → ℝ} (huv : ∀ x, OnHull c t x → ∑ i ∈ Finset.range N, u i * eval x (φ i) = ∑ i ∈ Finset.range N, v i * eval x (φ i))
    {d1 : Key} {e1 : ℕ} {t1 l : List ℕ} (he1 : HasEntity c.topo d1 e1 t1) (hsub : t1 ⊆ t) (hl : ids.at? d1 e1 = some l) :
    ∀ i ∈ l, u i = v i := by
  classical
  let S : ℕ → Prop := fun i => ∃ d1 e1 t1 l, HasEntity c.topo d1 e1 t1 ∧ t1 ⊆ t ∧ ids.at? d1 e1 = some l ∧ i ∈ l
  let w : ℕ → ℝ := fun i => if S i then u i - v i else 0
  have hw : ∀ x : Fin D → ℝ, OnHull c t x → ∑ i ∈ Finset.range N, w i * eval x (φ i) = 0 := by
    intro x hx
    have : ∀ i ∈ Finset.range N, w i * eval x (φ i) = u i * eval x (φ i) - v i * eval x (φ i) := by
      intro i hi
      by_cases hS : S i
      · simp only [w, if_pos hS, sub_mul]
      · obtain ⟨d2, e2, t2, l2, q1, q2, q3⟩ := h.owner (Finset.mem_range.1 hi)
        have : ¬ t2 ⊆ t := fun hh => hS ⟨d2, e2, t2, l2, q1, hh, q2, q3⟩
        rw [h.vanish he q1 q2 this hx q3]
        simp
    rw [Finset.sum_congr rfl this, Finset.sum_sub_distrib, huv x hx, sub_self]
  let code := (entOf L es (d, e)).1
  let proj : (Fin D → ℝ) → Fin D → ℝ := fun x i => match code i with
    | none => x i
    | some b => serBit b
  let fac : (Fin D → ℝ) → ℝ := fun x => ∏ i, match code i with
    | none => 1
    | some b => eval x (serFactor (some b) 0 i)
  have hfac : ∀ i, S i → ∀ x, eval x (φ i) = eval (proj x) (φ i) * fac x := by
    rintro i ⟨d2, e2, t2, l2, q1, q2, q3, q4⟩ x
    have hm : φ i ∈ SerEnt.funcs r (entOf L es (d2, e2)) := by
      rw [← h.block d2 e2 t2 l2 q1 q3]; exact List.mem_map_of_mem q4
    obtain ⟨a, -, h3⟩ := List.mem_map.1 hm
    rw [← h3]
    simp only [serPhi, map_mul, map_prod, eval_C, fac, mul_assoc, ← Finset.prod_mul_distrib]
    congr 1
    refine Finset.prod_congr rfl fun j _ => ?_
    cases hc : code j with
    | none =>
      simp only [mul_one]
      have hp : proj x j = x j := by simp only [proj, hc]
      cases hc2 : (entOf L es (d2, e2)).1 j with
      | none => exact (eval_serFactor_none _ _ _ _ _ hp).symm
      | some b => cases b <;> simp [serFactor, serLam, hp]
    | some b =>
      have hc2 := hfix j b hc d2 e2 t2 q1 q2
      simp only [hc2]
      rw [eval_serLam b j (proj x) (by simp only [proj, hc]) _, one_mul]
      rfl
  have hz : ∑ i ∈ Finset.range N, C (w i) * φ i = 0 := by
    apply MvPolynomial.funext
    intro x
    rw [map_sum, map_zero]
    have : ∀ i ∈ Finset.range N, eval x (C (w i) * φ i) = (w i * eval (proj x) (φ i)) * fac x := by
      intro i _
      rw [map_mul, eval_C]
      by_cases hS : S i
      · rw [hfac i hS x]; ring
      · simp only [w, if_neg hS, zero_mul]
    rw [Finset.sum_congr rfl this, ← Finset.sum_mul, hw (proj x), zero_mul]
    refine hpt _ fun i b hi => ?_
    have hi' : code i = some b := hi
    simp only [proj, hi']
  intro i hi
  have hiN := (h.part.1 d1 e1 l hl).2 i hi
  have := h.indep w hz i hiN
  have hS : S i := ⟨d1, e1, t1, l, he1, hsub, hl, hi⟩
  simp only [w, if_pos hS] at this
  linarith

/-- Every point with the fixed coordinates of the entity lies on the entity. -/
theorem SerElt.hull_mem (h : SerElt c L es bit r N ids φ) {d : Key} {e : ℕ} {t : List ℕ} (he : HasEntity c.topo d e t) (ht : t.Nodup)
    {a0 : ℕ} (ha0 : a0 ∈ t) (h0 : ∀ i, (entOf L es (d, e)).1 i = none → bit a0 i = false)
    (h1 : ∀ i b, (entOf L es (d, e)).1 i = some b → bit a0 i = b)
    (h2 : ∀ i, (entOf L es (d, e)).1 i = none → ∃ a ∈ t, ∀ j, bit a j = if j = i then true else bit a0 j) {x : Fin D → ℝ}
    (hx : ∀ i b, (entOf L es (d, e)).1 i = some b → x i = serBit b) : OnHull c t x := by
  classical
  choose! v v1 v2 using h2
  let F : Finset (Fin D) := Finset.univ.filter fun i => (entOf L es (d, e)).1 i = none
  have hF : ∀ i, i ∈ F ↔ (entOf L es (d, e)).1 i = none := fun i => by simp [F]
  let w : ℕ → ℝ := fun a => (if a = a0 then 1 - ∑ i ∈ F, x i else 0) + ∑ i ∈ F, if a = v i then x i else 0
  have hsum : ∀ f : ℕ → ℝ, (t.map fun a => w a * f a).sum = (1 - ∑ i ∈ F, x i) * f a0 + ∑ i ∈ F, x i * f (v i) := by
    intro f
    rw [← List.sum_toFinset _ ht]
    simp only [w, add_mul, Finset.sum_add_distrib, Finset.sum_mul, ite_mul, zero_mul]
    rw [Finset.sum_ite_eq', if_pos (List.mem_toFinset.2 ha0), Finset.sum_comm]
    congr 1
    refine Finset.sum_congr rfl fun i hi => ?_
    rw [Finset.sum_ite_eq', if_pos (List.mem_toFinset.2 (v1 i ((hF i).1 hi)))]
  refine ⟨w, ?_, fun j => ?_⟩
  · have := hsum fun _ => 1
    simp only [mul_one] at this
    rw [this]; ring
  · rw [hsum, h.coord d e t he a0 ha0 j]
    have e1 : ∀ i ∈ F, x i * c.coord (v i) j = (if i = j then x i else 0) + x i * serBit (bit a0 j) := by
      intro i hi
      have hi' := (hF i).1 hi
      rw [h.coord d e t he _ (v1 i hi') j, v2 i hi' j]
      by_cases hij : j = i
      · subst hij
        rw [if_pos rfl, if_pos rfl, h0 _ hi']
        simp [serBit]
      · rw [if_neg hij, if_neg (Ne.symm hij), zero_add]
    rw [Finset.sum_congr rfl e1, Finset.sum_add_distrib, ← Finset.sum_mul, Finset.sum_ite_eq']
    cases hc : (entOf L es (d, e)).1 j with
    | none => rw [if_pos ((hF j).2 hc), h0 j hc]; simp [serBit]
    | some b =>
      rw [if_neg (fun hj => by rw [(hF j).1 hj] at hc; cases hc), h1 j b hc, hx j b hc]
      ring

/-- The sum over the dofs, by entities. -/
theorem SerElt.sum_blocks (h : SerElt c L es bit r N ids φ) (f : ℕ → ℝ) :
    ∑ i ∈ Finset.range N, f i = ∑ p ∈ L.toFinset, (((ids.at? p.1 p.2).getD []).map f).sum := by
  classical
  have hnd : ∀ p : Key × ℕ, ((ids.at? p.1 p.2).getD []).Nodup := by
    intro p
    cases hl : ids.at? p.1 p.2 with
    | none => exact List.nodup_nil
    | some l => exact (h.part.1 p.1 p.2 l hl).1
  have e1 : Finset.range N = L.toFinset.biUnion fun p => ((ids.at? p.1 p.2).getD []).toFinset := by
    ext i
    simp only [Finset.mem_range, Finset.mem_biUnion, List.mem_toFinset]
    constructor
    · intro hi
      obtain ⟨d1, e1, t1, l, q1, q2, q3⟩ := h.owner hi
      exact ⟨(d1, e1), (h.cell.mem d1 e1).2 ⟨t1, q1⟩, by rw [q2]; exact q3⟩
    · rintro ⟨p, -, hp⟩
      cases hl : ids.at? p.1 p.2 with
      | none => rw [hl] at hp; simp at hp
      | some l => rw [hl] at hp; exact (h.part.1 p.1 p.2 l hl).2 i hp
  rw [e1, Finset.sum_biUnion]
  · exact Finset.sum_congr rfl fun p _ => List.sum_toFinset f (hnd p)
  · intro p hp q hq hpq
    rw [Function.onFun, Finset.disjoint_left]
    intro i hi hi'
    rw [List.mem_toFinset] at hi hi'
    cases hl : ids.at? p.1 p.2 with
    | none => rw [hl] at hi; simp at hi
    | some l =>
      cases hl' : ids.at? q.1 q.2 with
      | none => rw [hl'] at hi'; simp at hi'
      | some l' =>
        rw [hl] at hi
        rw [hl'] at hi'
        obtain ⟨o, -, hu⟩ := h.part.2 i ((h.part.1 p.1 p.2 l hl).2 i hi)
        exact hpq ((hu p ⟨l, hl, hi⟩).trans (hu q ⟨l', hl', hi'⟩).symm)

/-- Corresponding functions have equal values at corresponding points. -/
theorem SerElt.corr (h : SerElt c L es bit r N ids φ) {d : Key} {e e' : ℕ} {t t' : List ℕ} {σ : Equiv.Perm (Fin D)}
    (hσ : SerMatch c.topo L es bit (r ≤ 4) d e e' t t' σ) (he : HasEntity c.topo d e t) (he' : HasEntity c.topo d e' t')
    {x y : Fin D → ℝ} (hx : OnHull c t x) (hy : OnHull c t' y)
    (hxy : ∀ i, (entOf L es (d, e)).1 i = none → y (σ i) = x i)
    {d1 : Key} {e1 e1' : ℕ} {t1 l l' : List ℕ} (he1 : HasEntity c.topo d1 e1 t1) (hsub : t1 ⊆ t)
    (he1' : HasEntity c.topo d1 e1' (t1.map (translate t t'))) (hl : ids.at? d1 e1 = some l) (hl' : ids.at? d1 e1' = some l') :
    l.map (fun i => eval x (φ i)) = l'.map (fun i => eval y (φ i)) := by
  obtain ⟨m1, m2, m3⟩ := hσ.sub _ (mem_allEntities he1) hsub _ (mem_allEntities he1') rfl rfl
  have b1 := h.block d1 e1 t1 l he1 hl
  have b2 := h.block d1 e1' _ l' he1' hl'
  have c1 : l.map (fun i => eval x (φ i)) = (l.map φ).map (eval x) := by rw [List.map_map]; rfl
  have c2 : l'.map (fun i => eval y (φ i)) = (l'.map φ).map (eval y) := by rw [List.map_map]; rfl
  rw [c1, c2, b1, b2]
  have hidx : serIdx r (entOf L es (d1, e1')).2 = (serIdx r (entOf L es (d1, e1)).2).map fun a => a ∘ σ.symm := by
    rcases m3 with m3 | ⟨m3, m4, m5⟩
    · rw [m3, serIdx_perm]
    · rw [← serIdx_perm]
      exact serIdx_low m3 m5 (by rw [List.length_map]; exact m4)
  have hlen : (entOf L es (d1, e1')).2.length = (entOf L es (d1, e1)).2.length := by
    rcases m3 with m3 | ⟨m3, m4, m5⟩
    · rw [m3, List.length_map]
    · rw [m4, m5]
  simp only [SerEnt.funcs, hidx, hlen, List.map_map]
  refine List.map_congr_left fun a _ => ?_
  simp only [Function.comp, serPhi, map_mul, map_prod, eval_C]
  congr 1
  symm
  rw [← Equiv.prod_comp σ]
  refine Finset.prod_congr rfl fun i _ => ?_
  symm
  simp only [Equiv.symm_apply_apply]
  cases hc : (entOf L es (d, e)).1 i with
  | none =>
    rw [m1 i hc]
    cases (entOf L es (d1, e1)).1 i with
    | none => exact (eval_serFactor_none _ _ _ _ _ (hxy i hc)).symm
    | some b => cases b <;> simp [serFactor, serLam, hxy i hc]
  | some b =>
    obtain ⟨n1, n2⟩ := m2 i (by rw [hc]; exact fun hh => by cases hh)
    obtain ⟨k1, b', k2, k3⟩ := hσ.fixed i b hc
    rw [n1, n2, hc, k2, eval_serLam b i x (h.hull_coord he k1 hx), eval_serLam b' (σ i) y (h.hull_coord he' k3 hy)]

/-- The map between two entities in coordinates. -/
theorem affMap_coord {t t' : List ℕ} {M : Fin D → Fin D → ℝ} {b : Fin D → ℝ}
    (hv : ∀ x ∈ t, ∀ i : Fin D, c.coord (translate t t' x) i = b i + ∑ j, M i j * c.coord x j) {x : Fin D → ℝ} (hx : OnHull c t x)
    {i i' : Fin D} (hi : ∀ a ∈ t, c.coord (translate t t' a) i' = c.coord a i) : affMap M b x i' = x i := by
  obtain ⟨w, w1, w2⟩ := hx
  have key : ∀ l : List ℕ, (∀ a ∈ l, a ∈ t) → (l.map fun a => w a * c.coord a i).sum =
      (l.map w).sum * b i' + ∑ j, M i' j * (l.map fun a => w a * c.coord a j).sum := by
    intro l
    induction l with
    | nil => intro _; simp
    | cons a l ih =>
      intro hl
      have ha := hl a List.mem_cons_self
      simp only [List.map_cons, List.sum_cons, ih fun a ha => hl a (List.mem_cons_of_mem _ ha)]
      rw [← hi a ha, hv a ha i']
      simp only [mul_add, Finset.sum_add_distrib, Finset.mul_sum]
      rw [Finset.sum_congr rfl fun j _ => show M i' j * (w a * c.coord a j) = w a * (M i' j * c.coord a j) by ring]
      ring
  rw [affMap, w2 i, key t fun a ha => ha, w1, one_mul]
  congr 1
  exact Finset.sum_congr rfl fun j _ => by rw [w2 j]

theorem HasEntity.unique' {topo : Topology Key} {d : Key} {e : ℕ} {t t' : List ℕ} (h : HasEntity topo d e t)
    (h' : HasEntity topo d e t') : t = t' := by
  obtain ⟨es, a, b⟩ := h
  obtain ⟨es', a', b'⟩ := h'
  obtain rfl := Option.some.inj (a.symm.trans a')
  exact Option.some.inj (b.symm.trans b')

theorem sum_zip (k : List ℕ) (a b : ℕ → ℝ) : (k.map fun i => a i * b i) = List.zipWith (· * ·) (k.map a) (k.map b) := by
  induction k with
  | nil => rfl
  | cons i k ih => rw [List.map_cons, ih]; rfl

theorem SerElt.continuous (h : SerElt c L es bit r N ids φ) {d : Key} {e e' : ℕ} {t t' : List ℕ} {σ : Equiv.Perm (Fin D)}
    (hσ : SerMatch c.topo L es bit (r ≤ 4) d e e' t t' σ) (ht : HasEntity c.topo d e t) (ht' : HasEntity c.topo d e' t')
    {g g' : ℕ → ℕ} (hg : ∀ a < c.verts.length, ∀ a' < c.verts.length, g' a = g' a' → a = a') (htt : t.map g = t'.map g') :
    ContinuousOn c D N ids φ t t' g g' := by
  classical
  obtain ⟨a1, a2, ⟨M, b, a3, a4⟩, a5⟩ := h.cube d e e' t t' ht ht'
  obtain ⟨z1, z2, -, z5⟩ := h.cube d e' e t' t ht' ht
  have hgg : ∀ x ∈ t, g x = g' (translate t t' x) := by
    have : t.map g = t.map (g' ∘ translate t t') := by rw [htt, ← List.map_map, a1]
    exact List.map_inj_left.1 this
  have hlt := h.lt
  refine ⟨affMap M b, fun x hx => affMap_hull a1 a2 a4 hx, fun y hy => affMap_surj a1 a4 hy, ?_, ?_⟩
  · intro m X F F' hF hF' x hx i
    refine h.multilinear d e t t' M b ht a3 a4 a5 (F i) (F' i) (hF.multilinear i) (hF'.multilinear i) (fun x hx => ?_) x hx
    have hx' : translate t t' x ∈ t' := by
      have := List.mem_map_of_mem (f := translate t t') hx
      rwa [a1] at this
    rw [hF.vertices x (hlt _ _ _ ht x hx) i, hF'.vertices _ (hlt _ _ _ ht' _ hx') i, hgg x hx]
  intro u u'
  have hy : ∀ x, OnHull c t x → OnHull c t' (affMap M b x) := fun x hx => affMap_hull a1 a2 a4 hx
  have hmem : ∀ a ∈ t, translate t t' a ∈ t' := fun a ha => by
    have := List.mem_map_of_mem (f := translate t t') ha
    rwa [a1] at this
  have hxy : ∀ x, OnHull c t x → ∀ i, (entOf L es (d, e)).1 i = none → affMap M b x (σ i) = x i := fun x hx i hi =>
    affMap_coord a4 hx fun a ha => by
      rw [h.coord d e' t' ht' _ (hmem a ha), h.coord d e t ht a ha, hσ.free i hi a ha]
  -- the name of an entity is determined by its vertices
  have huniq : ∀ d1 e1 e2 t1, HasEntity c.topo d1 e1 t1 → HasEntity c.topo d1 e2 t1 → e1 = e2 := fun d1 e1 e2 t1 q1 q2 => by
    have := h.names _ (mem_allEntities q1) _ (mem_allEntities q2) rfl
    simp only [Prod.mk.injEq] at this
    exact this.1.2.symm
  -- equal coefficients give equal values
  have hval : ∀ v v' : ℕ → ℝ,
      (∀ d1 e1 e1' t1 l l', HasEntity c.topo d1 e1 t1 → t1 ⊆ t → HasEntity c.topo d1 e1' (t1.map (translate t t')) →
        ids.at? d1 e1 = some l → ids.at? d1 e1' = some l' → l.map v = l'.map v') →
      ∀ x, OnHull c t x → ∑ i ∈ Finset.range N, v i * eval x (φ i) = ∑ i ∈ Finset.range N, v' i * eval (affMap M b x) (φ i) := by
    intro v v' hvv x hx
    rw [h.sum_blocks, h.sum_blocks]
    have hvan : ∀ (tt : List ℕ) (ee : ℕ) (z : Fin D → ℝ) (vv : ℕ → ℝ), HasEntity c.topo d ee tt → OnHull c tt z →
        ∀ p ∈ L.toFinset, p ∉ L.toFinset.filter (fun p => ∃ t1, HasEntity c.topo p.1 p.2 t1 ∧ t1 ⊆ tt) →
        (((ids.at? p.1 p.2).getD []).map fun i => vv i * eval z (φ i)).sum = 0 := by
      intro tt ee z vv hte hz p hp hnp
      obtain ⟨t1, q1⟩ := (h.cell.mem p.1 p.2).1 (List.mem_toFinset.1 hp)
      have hns : ¬ t1 ⊆ tt := fun hh => hnp (Finset.mem_filter.2 ⟨hp, t1, q1, hh⟩)
      cases hl : ids.at? p.1 p.2 with
      | none => rfl
      | some l =>
        apply List.sum_eq_zero
        intro z' hz'
        obtain ⟨i, hi, rfl⟩ := List.mem_map.1 hz'
        rw [h.vanish hte q1 hl hns hz hi, mul_zero]
    rw [← Finset.sum_subset (Finset.filter_subset _ _) (hvan t e x v ht hx),
      ← Finset.sum_subset (Finset.filter_subset _ _) (hvan t' e' (affMap M b x) v' ht' (hy x hx))]
    have hpart : ∀ p ∈ L.toFinset.filter (fun p => ∃ t1, HasEntity c.topo p.1 p.2 t1 ∧ t1 ⊆ t),
        ∃ e1', ∃ t1, HasEntity c.topo p.1 p.2 t1 ∧ t1 ⊆ t ∧ HasEntity c.topo p.1 e1' (t1.map (translate t t')) := by
      intro p hp
      obtain ⟨t1, q1, q2⟩ := (Finset.mem_filter.1 hp).2
      obtain ⟨e1', q3⟩ := a5 p.1 p.2 t1 q1 q2
      exact ⟨e1', t1, q1, q2, q3⟩
    choose! f hf using hpart
    refine Finset.sum_bij (fun p _ => (p.1, f p)) ?_ ?_ ?_ ?_
    · intro p hp
      obtain ⟨t1, q1, q2, q3⟩ := hf p hp
      refine Finset.mem_filter.2 ⟨List.mem_toFinset.2 ((h.cell.mem _ _).2 ⟨_, q3⟩), _, q3, ?_⟩
      intro a ha
      obtain ⟨a', ha', rfl⟩ := List.mem_map.1 ha
      exact hmem a' (q2 ha')
    · intro p hp q hq hpq
      obtain ⟨t1, q1, q2, q3⟩ := hf p hp
      obtain ⟨t2, p1, p2, p3⟩ := hf q hq
      obtain ⟨d1, e1⟩ := p
      obtain ⟨d2, e2⟩ := q
      simp only [Prod.mk.injEq] at hpq
      obtain ⟨rfl, hpq⟩ := hpq
      simp only at q1 q3 p1 p3
      rw [hpq] at q3
      have ht12 : t1.map (translate t t') = t2.map (translate t t') := HasEntity.unique' q3 p3
      have hback : ∀ tt : List ℕ, tt ⊆ t → (tt.map (translate t t')).map (translate t' t) = tt := fun tt htt => by
        rw [List.map_map]
        conv_rhs => rw [← List.map_id tt]
        exact List.map_congr_left fun a ha => a2 a (htt ha)
      have : t1 = t2 := by rw [← hback t1 q2, ← hback t2 p2, ht12]
      subst this
      rw [huniq _ _ _ _ q1 p1]
    · intro q hq
      obtain ⟨hqL, t2, q1, q2⟩ := Finset.mem_filter.1 hq
      obtain ⟨e1, q3⟩ := z5 q.1 q.2 t2 q1 q2
      have hsub : t2.map (translate t' t) ⊆ t := by
        intro a ha
        obtain ⟨a', ha', rfl⟩ := List.mem_map.1 ha
        have := List.mem_map_of_mem (f := translate t' t) (q2 ha')
        rwa [z1] at this
      have hp : (q.1, e1) ∈ L.toFinset.filter (fun p => ∃ t1, HasEntity c.topo p.1 p.2 t1 ∧ t1 ⊆ t) :=
        Finset.mem_filter.2 ⟨List.mem_toFinset.2 ((h.cell.mem _ _).2 ⟨_, q3⟩), _, q3, hsub⟩
      refine ⟨(q.1, e1), hp, ?_⟩
      obtain ⟨t1, p1, p2, p3⟩ := hf _ hp
      simp only at p1 p3
      have : t1 = t2.map (translate t' t) := HasEntity.unique' p1 q3
      subst this
      have hb : (t2.map (translate t' t)).map (translate t t') = t2 := by
        rw [List.map_map]
        conv_rhs => rw [← List.map_id t2]
        exact List.map_congr_left fun a ha => z2 a (q2 ha)
      rw [hb] at p3
      exact Prod.ext rfl (huniq _ _ _ _ p3 q1)
    · intro p hp
      obtain ⟨t1, q1, q2, q3⟩ := hf p hp
      obtain ⟨l, hl⟩ := Option.isSome_iff_exists.1 ((h.same _ _).2 ⟨_, q1⟩)
      obtain ⟨l', hl'⟩ := Option.isSome_iff_exists.1 ((h.same _ _).2 ⟨_, q3⟩)
      simp only [hl, hl', Option.getD_some]
      have r1 := hvv _ _ _ _ l l' q1 q2 q3 hl hl'
      have r2 := h.corr hσ ht ht' hx (hy x hx) (hxy x hx) q1 q2 q3 hl hl'
      rw [sum_zip, sum_zip, r1, r2]
  have hdet := @SerElt.determined D c L es bit r N ids φ h d e t ht (fun i b hi d1 e1 t1 q1 q2 => by
      obtain ⟨e1', q3⟩ := a5 d1 e1 t1 q1 q2
      obtain ⟨-, m2, -⟩ := hσ.sub _ (mem_allEntities q1) q2 _ (mem_allEntities q3) rfl rfl
      rw [(m2 i (by rw [hi]; exact fun hh => by cases hh)).1, hi])
    (fun x hx => by
      obtain ⟨n1, a0, n2, n3, n4, n5⟩ := h.corner _ (mem_allEntities ht)
      exact h.hull_mem ht n1 n2 n3 (fun i b hi => by
        rcases n4 i with n | n
        · simp only [hi] at n; cases n
        · simp only [hi, Option.some.injEq] at n; exact n.symm) n5 hx)
  constructor
  · intro hc
    refine hval u u' fun d1 e1 e1' t1 l l' q1 q2 q3 q4 q5 => hc d1 e1 e1' t1 _ l l' q1 q2 q3 ?_ q4 q5
    rw [List.map_map]
    exact List.map_congr_left fun x hx => hgg x (q2 hx)
  · intro hc d1 e1 e1' t1 t1' l l' q1 q2 q3 q6 q4 q5
    have hh : t1' = t1.map (translate t t') := by
      have hm : t1'.map g' = (t1.map (translate t t')).map g' := by
        rw [← q6, List.map_map]
        exact List.map_congr_left fun x hx => hgg x (q2 x hx)
      obtain ⟨e2, q7⟩ := a5 d1 e1 t1 q1 q2
      exact map_inj_on (fun x hx => hlt _ _ _ q3 x hx) (fun x hx => hlt _ _ _ q7 x hx) hg hm
    subst hh
    -- the coefficients of the other cell, carried over
    let R : ℕ → ℝ → Prop := fun i v => ∃ (d1 : Key) (e1 e1' : ℕ) (t1 l l' : List ℕ) (q : ℕ), HasEntity c.topo d1 e1 t1 ∧ t1 ⊆ t ∧
      HasEntity c.topo d1 e1' (t1.map (translate t t')) ∧ ids.at? d1 e1 = some l ∧ ids.at? d1 e1' = some l' ∧
      l[q]? = some i ∧ (l'.map u')[q]? = some v
    have hR : ∀ i v v', R i v → R i v' → v = v' := by
      rintro i v v' ⟨d1, e1, e1', t1, l, l', q, p1, p2, p3, p4, p5, p6, p7⟩ ⟨d2, e2, e2', t2, k, k', q', r1, r2, r3, r4, r5, r6, r7⟩
      have hi := (h.part.1 d1 e1 l p4).2 i (List.mem_of_getElem? p6)
      obtain ⟨o, -, hu⟩ := h.part.2 i hi
      have o1 := hu (d1, e1) ⟨l, p4, List.mem_of_getElem? p6⟩
      have o2 := hu (d2, e2) ⟨k, r4, List.mem_of_getElem? r6⟩
      have := o1.trans o2.symm
      simp only [Prod.mk.injEq] at this
      obtain ⟨rfl, rfl⟩ := this
      obtain rfl := Option.some.inj (p4.symm.trans r4)
      obtain rfl : t1 = t2 := HasEntity.unique' p1 r1
      obtain rfl := huniq _ _ _ _ p3 r3
      obtain rfl := Option.some.inj (p5.symm.trans r5)
      have hnd := (h.part.1 d1 e1 l p4).1
      obtain ⟨s1, s2⟩ := List.getElem?_eq_some_iff.1 p6
      obtain ⟨s3, s4⟩ := List.getElem?_eq_some_iff.1 r6
      obtain rfl : q = q' := (List.Nodup.getElem_inj_iff hnd).1 (s2.trans s4.symm)
      exact Option.some.inj (p7.symm.trans r7)
    let v : ℕ → ℝ := fun i => if hi : ∃ z, R i z then hi.choose else 0
    have hv : ∀ i z, R i z → v i = z := fun i z hz => by
      have he : ∃ z, R i z := ⟨z, hz⟩
      simp only [v, dif_pos he]
      exact hR i _ _ he.choose_spec hz
    have hvu : ∀ d1 e1 e1' t1 l l', HasEntity c.topo d1 e1 t1 → t1 ⊆ t → HasEntity c.topo d1 e1' (t1.map (translate t t')) →
        ids.at? d1 e1 = some l → ids.at? d1 e1' = some l' → l.map v = l'.map u' := by
      intro d1 e1 e1' t1 l l' p1 p2 p3 p4 p5
      obtain ⟨x0, hx0⟩ : ∃ x, OnHull c t x := by
        obtain ⟨n1, a0, n2, n3, n4, n5⟩ := h.corner _ (mem_allEntities ht)
        exact ⟨fun i => serBit (bit a0 i), h.hull_mem ht n1 n2 n3 (fun i b hi => by
          rcases n4 i with n | n
          · simp only [hi] at n; cases n
          · simp only [hi, Option.some.injEq] at n; exact n.symm) n5 fun i b hi => by
          rcases n4 i with n | n
          · simp only [hi] at n; cases n
          · simp only [hi, Option.some.injEq] at n; rw [n]⟩
      have hlen : l.length = l'.length := by
        have := congrArg List.length (h.corr hσ ht ht' hx0 (hy x0 hx0) (hxy x0 hx0) p1 p2 p3 p4 p5)
        simpa using this
      apply List.ext_getElem (by simp [hlen])
      intro q s1 s2
      rw [List.getElem_map]
      rw [List.length_map] at s1
      exact hv _ _ ⟨d1, e1, e1', t1, l, l', q, p1, p2, p3, p4, p5, List.getElem?_eq_getElem s1, List.getElem?_eq_getElem s2⟩
    rw [← hvu d1 e1 e1' t1 l l' q1 q2 q3 q4 q5]
    refine List.map_congr_left fun i hi => ?_
    refine hdet (u := u) (v := v) (fun x hx => ?_) q1 q2 q4 i hi
    rw [hc x hx, hval v u' hvu x hx]

end generic

theorem quad_corners : ∀ p ∈ allEntities (ufcQuadrilateral : CellData ℝ).topo, SerCorner quadList quadEnts quadBit p := by
  have h : (ufcQuadrilateral : CellData ℝ).topo = (ufcQuadrilateral : CellData ℤ).topo := rfl
  rw [h]
  decide +kernel

theorem hex_corners : ∀ p ∈ allEntities (ufcHexahedron : CellData ℝ).topo, SerCorner hexList hexEnts hexBit p := by
  have h : (ufcHexahedron : CellData ℝ).topo = (ufcHexahedron : CellData ℤ).topo := rfl
  rw [h]
  decide +kernel

theorem ser_indep {D : ℕ} {basis : List (MvPolynomial (Fin D) ℝ)} (h : LinearIndependent ℝ basis.get) (w : ℕ → ℝ)
    (hw : ∑ i ∈ Finset.range basis.length, C (w i) * basis.getD i 0 = 0) : ∀ i < basis.length, w i = 0 := by
  intro i hi
  rw [Fintype.linearIndependent_iff] at h
  refine h (fun i => w i) ?_ ⟨i, hi⟩
  rw [← hw, Finset.sum_range]
  refine Finset.sum_congr rfl fun j _ => ?_
  rw [smul_eq_C_mul, List.getD_eq_getElem _ _ j.2]
  rfl

theorem coord_of_bits {D : ℕ} {c : CellData ℝ} {bit : ℕ → Fin D → Bool} (hwf : ∀ d e t, HasEntity c.topo d e t → ∀ a ∈ t, a < c.verts.length)
    (hb : ∀ k p, c.verts[k]? = some p → ∀ i : Fin D, p.getD i 0 = serBit (bit k i)) :
    ∀ d e t, HasEntity c.topo d e t → ∀ a ∈ t, ∀ i : Fin D, c.coord a i = serBit (bit a i) := by
  intro d e t he a ha i
  have := hwf d e t he a ha
  rw [← hb a _ (List.getElem?_eq_getElem this) i, CellData.coord, List.getElem?_eq_getElem this, List.getD_eq_getElem?_getD]
  rfl

theorem quad_serElt {r : ℕ} (hr : 1 ≤ r) {basis : List (MvPolynomial (Fin 2) ℝ)} {ids : EntityIds Key}
    (h : serendipity2 ufcQuadrilateral r = some (basis, ids)) :
    SerElt ufcQuadrilateral quadList quadEnts quadBit r basis.length ids fun i => basis.getD i 0 := by
  obtain ⟨basis', ids', h1, -, h2, h3, -⟩ := serendipity_quad_dofs r hr
  obtain ⟨rfl, rfl⟩ := Prod.mk.inj (Option.some.inj (h1.symm.trans h))
  exact ⟨quad_cell, coord_of_bits good_quadrilateral.vertex_lt quad_bits, good_quadrilateral.vertex_lt, quad_names, h2, h3,
    fun d e t l q1 q2 => serendipity_quad_blocks r _ _ h d e t l q1 q2, ser_indep (serendipity_quad_space r hr _ _ h).1,
    quad_corners, cubeLike_quadrilateral, multilinear_quad⟩

theorem hex_serElt {r : ℕ} (hr : 1 ≤ r) {basis : List (MvPolynomial (Fin 3) ℝ)} {ids : EntityIds Key}
    (h : serendipity3 ufcHexahedron r = some (basis, ids)) :
    SerElt ufcHexahedron hexList hexEnts hexBit r basis.length ids fun i => basis.getD i 0 := by
  obtain ⟨basis', ids', h1, -, h2, h3, -⟩ := serendipity_hex_dofs r hr
  obtain ⟨rfl, rfl⟩ := Prod.mk.inj (Option.some.inj (h1.symm.trans h))
  exact ⟨hex_cell, coord_of_bits good_hexahedron.vertex_lt hex_bits, good_hexahedron.vertex_lt, hex_names, h2, h3,
    fun d e t l q1 q2 => serendipity_hex_blocks r _ _ h d e t l q1 q2, ser_indep (serendipity_hex_space r hr _ _ h).1,
    hex_corners, cubeLike_hexahedron, multilinear_hex⟩

/-- C83, quadrilaterals, all degrees: continuity across the cells of a mesh. -/
theorem serendipity_quad_continuous {r : ℕ} (hr : 1 ≤ r) {basis : List (MvPolynomial (Fin 2) ℝ)} {ids : EntityIds Key}
    (h : serendipity2 ufcQuadrilateral r = some (basis, ids)) :
    ContinuousAcross ufcQuadrilateral 2 basis.length ids fun i => basis.getD i 0 := by
  rw [continuousAcross_iff]
  intro d e e' t t' g g' ht ht' hg htt
  obtain ⟨σ, hσ⟩ := match_of_all (low := r ≤ 4) (fun h => by cases h) quad_matches ht ht' rfl
  exact (quad_serElt hr h).continuous hσ ht ht' hg htt

/-- C83, hexahedra: degrees up to 4. -/
theorem serendipity_hex_continuous_low {r : ℕ} (hr : 1 ≤ r) (hr4 : r ≤ 4) {basis : List (MvPolynomial (Fin 3) ℝ)} {ids : EntityIds Key}
    (h : serendipity3 ufcHexahedron r = some (basis, ids)) :
    ContinuousAcross ufcHexahedron 3 basis.length ids fun i => basis.getD i 0 := by
  rw [continuousAcross_iff]
  intro d e e' t t' g g' ht ht' hg htt
  obtain ⟨σ, hσ⟩ := match_of_all (low := r ≤ 4) (fun _ => hr4) hex_matches_low ht ht' rfl
  exact (hex_serElt hr h).continuous hσ ht ht' hg htt

/-- C83, hexahedra, all degrees: the vertices, the edges, and the faces of which both or none is perpendicular to the second direction
(faces 2 and 3).  Missing: the other faces for degrees above 4, for which the property fails (`serendipity_hex_refuted`). -/
theorem serendipity_hex_continuous_partial {r : ℕ} (hr : 1 ≤ r) {basis : List (MvPolynomial (Fin 3) ℝ)} {ids : EntityIds Key}
    (h : serendipity3 ufcHexahedron r = some (basis, ids)) {d : Key} {e e' : ℕ} {t t' : List ℕ} {g g' : ℕ → ℕ}
    (ht : HasEntity (ufcHexahedron : CellData ℝ).topo d e t) (ht' : HasEntity (ufcHexahedron : CellData ℝ).topo d e' t')
    (hd : d = .int 2 → ((e = 2 ∨ e = 3) ↔ (e' = 2 ∨ e' = 3)))
    (hg : ∀ a < (ufcHexahedron : CellData ℝ).verts.length, ∀ a' < (ufcHexahedron : CellData ℝ).verts.length, g' a = g' a' → a = a')
    (htt : t.map g = t'.map g') : ContinuousOn ufcHexahedron 3 basis.length ids (fun i => basis.getD i 0) t t' g g' := by
  obtain ⟨σ, hσ⟩ := match_of_all (low := r ≤ 4) (fun h => by cases h) hex_matches ht ht' (by
    by_cases h2 : d = .int 2
    · have := hd h2
      simp only [h2, beq_self_eq_true, Bool.not_true, Bool.false_or, sameTurn, beq_iff_eq]
      rw [Bool.eq_iff_iff]
      simpa using this
    · simp [h2])
  exact (hex_serElt hr h).continuous hσ ht ht' hg htt

/-! ### Hexahedra of degree 5 and more -/

/-- Two cubes which share the face `x = 0`: vertices `(x, y, z)` with number `4 x + 2 y + z`, and `(-1, y, z)` with number `8 + 2 y + z`. -/
def twoCubes (k : ℕ) : Fin 3 → ℝ := if k < 8 then ![(k / 4 : ℕ), (k / 2 % 2 : ℕ), (k % 2 : ℕ)] else ![-1, (k / 2 % 2 : ℕ), (k % 2 : ℕ)]

/-- The second cube is turned by a right angle: its face 2 lies on the face 0 of the first. -/
def turned (k : ℕ) : ℕ := [0, 1, 8, 9, 2, 3, 10, 11].getD k 0

theorem cubes_first : CubeInMesh (ufcHexahedron : CellData ℝ) (n := 3) twoCubes ![X 0, X 1, X 2] id := by
  refine ⟨fun i j => ?_, fun a ha i => ?_, fun a _ b _ h => h⟩
  · fin_cases i <;> fin_cases j <;> simp [degreeOf_X]
  · have ha' : a < 8 := ha
    interval_cases a <;> fin_cases i <;> simp [twoCubes, CellData.coord, hex_verts]

theorem cubes_second : CubeInMesh (ufcHexahedron : CellData ℝ) (n := 3) twoCubes ![-X 1, X 0, X 2] turned := by
  refine ⟨fun i j => ?_, fun a ha i => ?_, ?_⟩
  · fin_cases i
    · change degreeOf j (-X 1) ≤ 1
      rw [degreeOf_neg, degreeOf_X]; split_ifs <;> simp
    · change degreeOf j (X 0) ≤ 1
      rw [degreeOf_X]; split_ifs <;> simp
    · change degreeOf j (X 2) ≤ 1
      rw [degreeOf_X]; split_ifs <;> simp
  · have ha' : a < 8 := ha
    interval_cases a <;> fin_cases i <;> simp [twoCubes, turned, CellData.coord, hex_verts]
  · intro a ha b hb
    have ha' : a < 8 := ha
    have hb' : b < 8 := hb
    interval_cases a <;> interval_cases b <;> simp [turned]

theorem serIdx_five (m : ℕ) (c c' : Fin 3) : ∃ rest, serIdx (m + 5) [c, c'] =
    (Pi.single c 0 + Pi.single c' 0) :: (Pi.single c 0 + Pi.single c' 1) :: (Pi.single c 1 + Pi.single c' 0) :: rest := by
  have e1 : List.range' 4 (m + 5 - 3) = 4 :: 5 :: List.range' 6 m := by
    rw [show m + 5 - 3 = m + 1 + 1 by omega, List.range'_succ, List.range'_succ]
  unfold serIdx
  rw [e1]
  exact ⟨_, rfl⟩

theorem twoCubes_entities : HasEntity (ufcHexahedron : CellData ℝ).topo (.int 2) 0 [0, 1, 2, 3] ∧
    HasEntity (ufcHexahedron : CellData ℝ).topo (.int 2) 2 [0, 1, 4, 5] := ⟨⟨_, rfl, rfl⟩, ⟨_, rfl, rfl⟩⟩

/-- C83 is false of the code for hexahedra of degree 5 and more: on the face shared by the two cubes the functions with the same
coefficients in the two cubes are different. -/
theorem serendipity_hex_refuted {r : ℕ} (hr : 5 ≤ r) {basis : List (MvPolynomial (Fin 3) ℝ)} {ids : EntityIds Key}
    (h : serendipity3 ufcHexahedron r = some (basis, ids)) :
    ¬ ContinuousOn ufcHexahedron 3 basis.length ids (fun i => basis.getD i 0) [0, 1, 2, 3] [0, 1, 4, 5] id turned := by
  rintro ⟨Θ, -, -, h3, h4⟩
  have hE := hex_serElt (by omega) h
  obtain ⟨q1, q2⟩ := twoCubes_entities
  have hΘ : ∀ x : Fin 3 → ℝ, OnHull ufcHexahedron [0, 1, 2, 3] x → x 0 = 0 ∧ Θ x 0 = x 1 ∧ Θ x 1 = 0 ∧ Θ x 2 = x 2 := by
    intro x hx
    have k := h3 3 twoCubes _ _ cubes_first cubes_second x hx
    have k0 := k 0
    have k1 := k 1
    have k2 := k 2
    simp at k0 k1 k2
    have x0 : x 0 = 0 := by
      have := hE.hull_coord q1 (i := 0) (b := false) (by decide +kernel) hx
      simpa [serBit] using this
    exact ⟨x0, k1.symm, by linarith, k2.symm⟩
  obtain ⟨l, hl⟩ := Option.isSome_iff_exists.1 ((hE.same _ _).2 ⟨_, q1⟩)
  obtain ⟨l', hl'⟩ := Option.isSome_iff_exists.1 ((hE.same _ _).2 ⟨_, q2⟩)
  have b1 := hE.block _ _ _ l q1 hl
  have b2 := hE.block _ _ _ l' q2 hl'
  have o1 : entOf hexList hexEnts (.int 2, 0) = (![some false, none, none], [1, 2]) := by decide +kernel
  have o2 : entOf hexList hexEnts (.int 2, 2) = (![none, some false, none], [2, 0]) := by decide +kernel
  obtain ⟨m, rfl⟩ : ∃ m, r = m + 5 := ⟨r - 5, by omega⟩
  obtain ⟨r1, s1⟩ := serIdx_five m 1 2
  obtain ⟨r2, s2⟩ := serIdx_five m 2 0
  rw [o1, SerEnt.funcs, s1] at b1
  rw [o2, SerEnt.funcs, s2] at b2
  simp only [List.map_cons, List.length_cons, List.length_nil] at b1 b2
  obtain ⟨i0, l1, rfl, p0, b1⟩ := List.map_eq_cons_iff.1 b1
  obtain ⟨i1, l1, rfl, p1, b1⟩ := List.map_eq_cons_iff.1 b1
  obtain ⟨j0, l2, rfl, -, b2⟩ := List.map_eq_cons_iff.1 b2
  obtain ⟨j1, l2, rfl, -, b2⟩ := List.map_eq_cons_iff.1 b2
  obtain ⟨j2, l2, rfl, p2, b2⟩ := List.map_eq_cons_iff.1 b2
  obtain ⟨n1, n2⟩ := hE.part.1 _ _ _ hl
  obtain ⟨n3, n4⟩ := hE.part.1 _ _ _ hl'
  have hi1 : i1 < basis.length := n2 i1 (by simp)
  have hj2 : j2 < basis.length := n4 j2 (by simp)
  have hsum : ∀ (i : ℕ) (y : Fin 3 → ℝ), i < basis.length →
      ∑ k ∈ Finset.range basis.length, (if k = i then (1 : ℝ) else 0) * eval y (basis.getD k 0) = eval y (basis.getD i 0) := by
    intro i y hi
    simp only [ite_mul, one_mul, zero_mul]
    rw [Finset.sum_ite_eq', if_pos (Finset.mem_range.2 hi)]
  have hc := (h4 (fun i => if i = i1 then 1 else 0) (fun i => if i = j2 then 1 else 0)).2 (fun x hx => by
    obtain ⟨x0, y0, y1, y2⟩ := hΘ x hx
    rw [hsum i1 x hi1, hsum j2 _ hj2, p1, p2]
    simp only [serPhi, map_mul, map_prod, eval_C, Fin.prod_univ_three]
    congr 1
    have f0 : eval x (serFactor (some false) ((Pi.single (1 : Fin 3) 0 + Pi.single 2 1 : Fin 3 → ℕ) 0) 0) = 1 :=
      eval_serLam false 0 x (by rw [x0]; rfl) _
    have f1 : eval (Θ x) (serFactor (some false) ((Pi.single (2 : Fin 3) 1 + Pi.single 0 0 : Fin 3 → ℕ) 1) 1) = 1 :=
      eval_serLam false 1 _ (by rw [y1]; rfl) _
    have f2 := eval_serFactor_none 0 (1 : Fin 3) 0 x (Θ x) y0
    have f3 := eval_serFactor_none 1 (2 : Fin 3) 2 x (Θ x) y2
    change eval x (serFactor (some false) _ 0) * eval x (serFactor none 0 1) * eval x (serFactor none 1 2) =
      eval (Θ x) (serFactor none 0 0) * eval (Θ x) (serFactor (some false) _ 1) * eval (Θ x) (serFactor none 1 2)
    rw [f0, f1, f2, f3]
    ring) (.int 2) 0 2 _ _ _ _ q1 (fun a ha => ha) q2 rfl hl hl'
  simp only [List.map_cons, List.cons.injEq, if_true] at hc
  have hne : j1 ≠ j2 := by
    intro hh
    subst hh
    simp at n3
  rw [if_neg hne] at hc
  exact one_ne_zero hc.2.1

/-- Degrees 1 and 5 of the hexahedron, and every degree of the quadrilateral, meet the hypotheses. -/
example : (∃ basis ids, serendipity3 ufcHexahedron 5 = some (basis, ids) ∧ basis.length = 74 ∧
      ¬ ContinuousAcross ufcHexahedron 3 basis.length ids fun i => basis.getD i 0) ∧
    (∃ basis ids, serendipity3 ufcHexahedron 4 = some (basis, ids) ∧ basis.length = 50 ∧
      ContinuousAcross ufcHexahedron 3 basis.length ids fun i => basis.getD i 0) ∧
    ∃ basis ids, serendipity2 ufcQuadrilateral 5 = some (basis, ids) ∧ basis.length = 23 ∧
      ContinuousAcross ufcQuadrilateral 2 basis.length ids fun i => basis.getD i 0 := by
  refine ⟨?_, ?_, ?_⟩
  · obtain ⟨b, ids, h1, h2, -⟩ := serendipity_hex_dofs 5 (by norm_num)
    refine ⟨b, ids, h1, by rw [h2]; decide, fun hc => ?_⟩
    exact serendipity_hex_refuted le_rfl h1 (hc (.int 2) 0 2 _ _ id turned twoCubes_entities.1 twoCubes_entities.2
      cubes_second.distinct rfl)
  · obtain ⟨b, ids, h1, h2, -⟩ := serendipity_hex_dofs 4 (by norm_num)
    exact ⟨b, ids, h1, by rw [h2]; decide, serendipity_hex_continuous_low (by norm_num) (by norm_num) h1⟩
  · obtain ⟨b, ids, h1, h2, -⟩ := serendipity_quad_dofs 5 (by norm_num)
    exact ⟨b, ids, h1, by rw [h2]; decide, serendipity_quad_continuous (by norm_num) h1⟩

/-- Two squares which share an edge (`strip_left`, `strip_right`): degree 5. -/
example : ∃ basis ids, serendipity2 ufcQuadrilateral 5 = some (basis, ids) ∧
    ContinuousOn ufcQuadrilateral 2 basis.length ids (fun i => basis.getD i 0) [2, 3] [0, 1] id (· + 2) := by
  obtain ⟨b, ids, h1, h2, -⟩ := serendipity_quad_dofs 5 (by norm_num)
  exact ⟨b, ids, h1, serendipity_quad_continuous (by norm_num) h1 (.int 1) 1 0 _ _ _ _ ⟨_, rfl, rfl⟩ ⟨_, rfl, rfl⟩
    (fun a _ b _ h => by simpa using h) rfl⟩

/-- Two cubes stacked in the second direction, degree 6: faces 3 and 2. -/
example : ∃ basis ids, serendipity3 ufcHexahedron 6 = some (basis, ids) ∧
    ContinuousOn ufcHexahedron 3 basis.length ids (fun i => basis.getD i 0) [2, 3, 6, 7] [0, 1, 4, 5] id (· + 2) := by
  obtain ⟨b, ids, h1, h2, -⟩ := serendipity_hex_dofs 6 (by norm_num)
  exact ⟨b, ids, h1, serendipity_hex_continuous_partial (by norm_num) h1 (d := .int 2) (e := 3) (e' := 2) ⟨_, rfl, rfl⟩ ⟨_, rfl, rfl⟩
    (fun _ => by simp) (fun a _ b _ h => by simpa using h) rfl⟩

end FIAT
