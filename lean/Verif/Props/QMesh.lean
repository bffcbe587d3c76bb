/-
C75: continuity across the cells of a mesh of quadrilaterals or hexahedra.
-/
import Verif.Props.QQuad

namespace FIAT
open MvPolynomial

/-- Multilinear functions with equal values at corresponding vertices agree on corresponding points. -/
def MultilinearShared (c : CellData ℝ) (n : ℕ) : Prop :=
  ∀ (d : Key) (e : ℕ) (t t' : List ℕ) (M : Fin n → Fin n → ℝ) (b : Fin n → ℝ), HasEntity c.topo d e t →
    (∀ j i i', M i j ≠ 0 → M i' j ≠ 0 → i = i') →
    (∀ x ∈ t, ∀ i : Fin n, c.coord (translate t t' x) i = b i + ∑ j, M i j * c.coord x j) →
    (∀ d1 e1 t1, HasEntity c.topo d1 e1 t1 → (∀ x ∈ t1, x ∈ t) → ∃ e1', HasEntity c.topo d1 e1' (t1.map (translate t t'))) →
    ∀ f f' : MvPolynomial (Fin n) ℝ, (∀ i, degreeOf i f ≤ 1) → (∀ i, degreeOf i f' ≤ 1) →
      (∀ x ∈ t, eval (fun i : Fin n => c.coord x i) f = eval (fun i : Fin n => c.coord (translate t t' x) i) f') →
      ∀ x, OnHull c t x → eval x f = eval (affMap M b x) f'

theorem multilinear_shared {E : TabElem ℝ ℝ} {ids : EntityIds Key} {nodes : List (List ℝ)} {φ : ℕ → MvPolynomial (Fin E.sd) ℝ}
    {emb : Key → ℕ → List ℝ → Fin E.sd → ℝ} {P : Key → List (List ℝ)} {W : Key → List ℝ → List ℝ}
    (hE : IsCubeElement E ids nodes φ emb P W fun _ => 1) (hU : Uniform E P W []) : MultilinearShared E.cell E.sd := by
  intro d e t t' M b ht hM hv hsub f f' hf hf' hval x hx
  obtain ⟨u, rfl⟩ := (hE.span f).1 hf
  obtain ⟨u', rfl⟩ := (hE.span f').1 hf'
  have hc := (c0_shared hE.c0 hE.placed hE.weights hE.span ht hM hv hsub u u').1 ?_ x hx
  · simpa using hc
  have hnode : ∀ (v : ℕ → ℝ) (i : ℕ) p, nodes[i]? = some p → eval (vecOf p) (∑ j ∈ Finset.range E.dim, C (v j) * φ j) = v i := by
    intro v i p hp
    have hi : i < E.dim := by rw [← hE.c0.nodes_len.1]; exact (List.getElem?_eq_some_iff.1 hp).1
    rw [map_sum, Finset.sum_eq_single i]
    · rw [map_mul, eval_C, hE.c0.nodal i p hp i hi, if_pos rfl, mul_one]
    · intro j hj hji
      rw [map_mul, hE.c0.nodal i p hp j (Finset.mem_range.1 hj), if_neg (Ne.symm hji), mul_zero]
    · intro h; exact absurd (Finset.mem_range.2 hi) h
  intro d1 e1 e1' t1 l l' h1 h2 h3 h4 h5
  have q1 := hE.placed.2 d1 e1 t1 l h1 h4
  have q2 := hE.placed.2 d1 e1' _ l' h3 h5
  obtain ⟨u1, u2⟩ := hU d1 e1 t1 h1
  rw [u1] at q1 q2
  rcases hd : d1.tupleSum with _ | m
  · rw [hd] at q1 q2 u2
    obtain ⟨a1, a2, a3⟩ := hE.weights d1 e1 t1 [] h1 (by rw [hd]; rfl)
    obtain ⟨b1, b2, b3⟩ := hE.weights d1 e1' _ [] h3 (by rw [hd]; rfl)
    rw [u2 [] rfl] at a1 a3 b3
    obtain ⟨x1, rfl⟩ : ∃ x1, t1 = [x1] := List.length_eq_one_iff.1 a1.symm
    have e1c : emb d1 e1 [] = fun i : Fin E.sd => E.cell.coord x1 i := by funext i; rw [a3]; simp [cubeWeights]
    have e2c : emb d1 e1' [] = fun i : Fin E.sd => E.cell.coord (translate t t' x1) i := by funext i; rw [b3]; simp [cubeWeights]
    simp only [cubePlaces, List.map_cons, List.map_nil] at q1 q2
    obtain ⟨i, rfl⟩ : ∃ i, l = [i] := List.length_eq_one_iff.1 (by simpa using congrArg List.length q1)
    obtain ⟨i', rfl⟩ : ∃ i, l' = [i] := List.length_eq_one_iff.1 (by simpa using congrArg List.length q2)
    simp only [List.map_cons, List.map_nil, List.cons.injEq, and_true] at q1 q2 ⊢
    obtain ⟨r, r1, r2⟩ := Option.map_eq_some_iff.1 q1
    obtain ⟨r', r1', r2'⟩ := Option.map_eq_some_iff.1 q2
    rw [← hnode u i r r1, ← hnode u' i' r' r1', r2, r2', e1c, e2c]
    exact hval x1 (h2 x1 List.mem_cons_self)
  · rw [hd] at q1 q2
    have hz : cubePlaces [] (m + 1) = [] := by simp [cubePlaces, prodNodes]
    rw [hz] at q1 q2
    rw [List.map_eq_nil_iff.1 q1, List.map_eq_nil_iff.1 q2]
    rfl

/-- Specification: `F` is the multilinear map of a cell whose vertex `a` is vertex `g a` of the mesh; the coordinates of the mesh vertices
are in `X`, and different vertices of the cell are different vertices of the mesh. -/
structure CubeInMesh (c : CellData ℝ) {n m : ℕ} (X : ℕ → Fin m → ℝ) (F : Fin m → MvPolynomial (Fin n) ℝ) (g : ℕ → ℕ) : Prop where
  multilinear : ∀ i j, degreeOf j (F i) ≤ 1
  vertices : ∀ a < c.verts.length, ∀ i, eval (fun j : Fin n => c.coord a j) (F i) = X (g a) i
  distinct : ∀ a < c.verts.length, ∀ a' < c.verts.length, g a = g a' → a = a'

/-- Specification: continuity of an element with basis `φ` on the cell `c`.  Two cells of a mesh share an entity, whose mesh vertices are
listed in the same order by both cells.  Then there is a map `Θ` from the points of the entity in the one reference cell to the points of
the entity in the other, which maps vertices to the same mesh vertices, and every point to a point with the same image in the mesh; two
functions of the element agree on the whole entity if and only if the coefficients of the dofs of that entity and of its sub-entities are
equal, in the order of `entity_dofs`. -/
def ContinuousAcross (c : CellData ℝ) (n N : ℕ) (ids : EntityIds Key) (φ : ℕ → MvPolynomial (Fin n) ℝ) : Prop :=
  ∀ (d : Key) (e e' : ℕ) (t t' : List ℕ) (g g' : ℕ → ℕ), HasEntity c.topo d e t → HasEntity c.topo d e' t' →
    (∀ a < c.verts.length, ∀ a' < c.verts.length, g' a = g' a' → a = a') → t.map g = t'.map g' →
    ∃ Θ : (Fin n → ℝ) → Fin n → ℝ, (∀ x, OnHull c t x → OnHull c t' (Θ x)) ∧ (∀ y, OnHull c t' y → ∃ x, OnHull c t x ∧ Θ x = y) ∧
      (∀ (m : ℕ) (X : ℕ → Fin m → ℝ) (F F' : Fin m → MvPolynomial (Fin n) ℝ), CubeInMesh c X F g → CubeInMesh c X F' g' →
        ∀ x, OnHull c t x → ∀ i, eval x (F i) = eval (Θ x) (F' i)) ∧
      ∀ u u' : ℕ → ℝ,
        (∀ d1 e1 e1' t1 t1' l l', HasEntity c.topo d1 e1 t1 → (∀ a ∈ t1, a ∈ t) → HasEntity c.topo d1 e1' t1' → t1.map g = t1'.map g' →
          ids.at? d1 e1 = some l → ids.at? d1 e1' = some l' → l.map u = l'.map u') ↔
        ∀ x, OnHull c t x → ∑ i ∈ Finset.range N, u i * eval x (φ i) = ∑ i ∈ Finset.range N, u' i * eval (Θ x) (φ i)

theorem affMap_surj {c : CellData ℝ} {n : ℕ} {t t' : List ℕ} {M : Fin n → Fin n → ℝ} {b : Fin n → ℝ}
    (h1 : t.map (translate t t') = t')
    (hv : ∀ x ∈ t, ∀ i : Fin n, c.coord (translate t t' x) i = b i + ∑ j, M i j * c.coord x j) {y : Fin n → ℝ} (hy : OnHull c t' y) :
    ∃ x, OnHull c t x ∧ affMap M b x = y := by
  obtain ⟨w, w1, w2⟩ := hy
  refine ⟨fun i => (t.map fun a => w (translate t t' a) * c.coord a i).sum, ⟨fun a => w (translate t t' a), ?_, fun i => rfl⟩, ?_⟩
  · rw [← w1]
    conv_rhs => rw [← h1]
    rw [List.map_map]
    rfl
  · have w1' : (t.map fun a => w (translate t t' a)).sum = 1 := by
      rw [← w1]
      conv_rhs => rw [← h1]
      rw [List.map_map]
      rfl
    funext i
    rw [w2 i]
    have e0 : (t'.map fun a => w a * c.coord a i) = t.map fun a => w (translate t t' a) * c.coord (translate t t' a) i := by
      conv_lhs => rw [← h1]
      rw [List.map_map]
      rfl
    rw [e0]
    have key : ∀ l : List ℕ, (∀ a ∈ l, a ∈ t) → (l.map fun a => w (translate t t' a) * c.coord (translate t t' a) i).sum =
        (l.map fun a => w (translate t t' a)).sum * b i + ∑ j, M i j * (l.map fun a => w (translate t t' a) * c.coord a j).sum := by
      intro l
      induction l with
      | nil => intro _; simp
      | cons a l ih =>
        intro hl
        simp only [List.map_cons, List.sum_cons, ih fun a ha => hl a (List.mem_cons_of_mem _ ha), hv a (hl a List.mem_cons_self) i,
          mul_add, Finset.sum_add_distrib, Finset.mul_sum]
        rw [Finset.sum_congr rfl fun j _ => show M i j * (w (translate t t' a) * c.coord a j) = w (translate t t' a) * (M i j * c.coord a j) by ring]
        ring
    rw [key t fun a ha => ha, w1', one_mul]
    rfl

theorem map_inj_on {n : ℕ} {g : ℕ → ℕ} {l l' : List ℕ} (hl : ∀ x ∈ l, x < n) (hl' : ∀ x ∈ l', x < n)
    (hg : ∀ a < n, ∀ a' < n, g a = g a' → a = a') (h : l.map g = l'.map g) : l = l' := by
  induction l generalizing l' with
  | nil => cases l' with
    | nil => rfl
    | cons => simp at h
  | cons x l ih => cases l' with
    | nil => simp at h
    | cons y l' =>
      simp only [List.map_cons, List.cons.injEq] at h
      rw [hg x (hl x List.mem_cons_self) y (hl' y List.mem_cons_self) h.1,
        ih (fun z hz => hl z (List.mem_cons_of_mem _ hz)) (fun z hz => hl' z (List.mem_cons_of_mem _ hz)) h.2]

/-- C75: continuity. -/
theorem cube_continuous {E : TabElem ℝ ℝ} {ids : EntityIds Key} {nodes : List (List ℝ)} {φ : ℕ → MvPolynomial (Fin E.sd) ℝ}
    {emb : Key → ℕ → List ℝ → Fin E.sd → ℝ} {P : Key → List (List ℝ)} {W : Key → List ℝ → List ℝ} {k : ℕ}
    (hE : IsCubeElement E ids nodes φ emb P W fun _ => k) (hc : CubeLike E.cell E.sd) (h1 : MultilinearShared E.cell E.sd) :
    ContinuousAcross E.cell E.sd E.dim ids φ := by
  intro d e e' t t' g g' ht ht' hg htt
  obtain ⟨a1, a2, ⟨M, b, a3, a4⟩, a5⟩ := hc d e e' t t' ht ht'
  have hgg : ∀ x ∈ t, g x = g' (translate t t' x) := by
    have : t.map g = t.map (g' ∘ translate t t') := by rw [htt, ← List.map_map, a1]
    exact List.map_inj_left.1 this
  have hlt := hE.c0.good.vertex_lt
  refine ⟨affMap M b, fun x hx => affMap_hull a1 a2 a4 hx, fun y hy => affMap_surj a1 a4 hy, ?_, ?_⟩
  · intro m X F F' hF hF' x hx i
    refine h1 d e t t' M b ht a3 a4 a5 (F i) (F' i) (hF.multilinear i) (hF'.multilinear i) (fun x hx => ?_) x hx
    have hx' : translate t t' x ∈ t' := by
      have := List.mem_map_of_mem (f := translate t t') hx
      rwa [a1] at this
    rw [hF.vertices x (hlt _ _ _ ht x hx) i, hF'.vertices _ (hlt _ _ _ ht' _ hx') i, hgg x hx]
  · intro u u'
    rw [← c0_shared hE.c0 hE.placed hE.weights hE.span ht a3 a4 a5 u u']
    constructor
    · intro h d1 e1 e1' t1 l l' q1 q2 q3 q4 q5
      refine h d1 e1 e1' t1 _ l l' q1 q2 q3 ?_ q4 q5
      rw [List.map_map]
      exact List.map_congr_left fun x hx => hgg x (q2 x hx)
    · intro h d1 e1 e1' t1 t1' l l' q1 q2 q3 q6 q4 q5
      have hh : t1' = t1.map (translate t t') := by
        have hm : t1'.map g' = (t1.map (translate t t')).map g' := by
          rw [← q6, List.map_map]
          exact List.map_congr_left fun x hx => hgg x (q2 x hx)
        obtain ⟨e2, q7⟩ := a5 d1 e1 t1 q1 q2
        exact map_inj_on (fun x hx => hlt _ _ _ q3 x hx) (fun x hx => hlt _ _ _ q7 x hx) hg hm
      subst hh
      exact h d1 e1 e1' t1 l l' q1 q2 q3 q4 q5

end FIAT
