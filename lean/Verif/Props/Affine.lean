/-
C09 (entity transforms), C10 (make_affine_mapping), C11 (UFC normals), C12 (contains_point).
-/
import Verif.Lemmas.Geometry
import Verif.Lemmas.Product
import Mathlib.LinearAlgebra.Matrix.ToLin
import Mathlib.LinearAlgebra.FiniteDimensional.Lemmas
import Mathlib.LinearAlgebra.Matrix.Nondegenerate
import Mathlib.Tactic.FinCases
import Mathlib.Tactic.LinearCombination
import Mathlib.Tactic.Positivity

namespace FIAT

/-! ### C10 -/

section C10
variable {K : Type*} [Field K] {dx dy : ℕ}

private theorem foldl_update {ι κ α : Type*} [DecidableEq κ] (l : List ι) (k : ι → κ) (f : ι → α)
    (m : κ → α) (h : (l.map k).Nodup) {a : ι} (ha : a ∈ l) :
    (l.foldl (fun m a => Function.update m (k a) (f a)) m) (k a) = f a := by
  have hnot : ∀ (l : List ι) (m : κ → α) (x : κ), x ∉ l.map k →
      (l.foldl (fun m a => Function.update m (k a) (f a)) m) x = m x := by
    intro l
    induction l with
    | nil => intros; rfl
    | cons b l ih =>
      intro m x hx
      simp only [List.map_cons, List.mem_cons, not_or] at hx
      rw [List.foldl_cons, ih _ _ hx.2, Function.update_of_ne hx.1]
  induction l generalizing m with
  | nil => simp at ha
  | cons b l ih =>
    rw [List.map_cons, List.nodup_cons] at h
    rw [List.foldl_cons]
    rcases List.mem_cons.1 ha with rfl | ha
    · rw [hnot _ _ _ h.1, Function.update_self]
    · exact ih _ h.2 ha

private theorem foldl_pair {ι α β : Type*} (l : List ι) (g : α → ι → α) (h : β → ι → β) (x : α × β) :
    l.foldl (fun acc a => (g acc.1 a, h acc.2 a)) x = (l.foldl g x.1, l.foldl h x.2) := by
  induction l generalizing x with
  | nil => rfl
  | cons a l ih => rw [List.foldl_cons, ih]; rfl

/-- The row of the matrix written for point `x` and component `j`. -/
private def affRow (x : Fin dx → K) (j : Fin dy) (col : ℕ) : K :=
  if col = dy * dx + j then 1
  else if h : dx * j ≤ col ∧ col - dx * j < dx then x ⟨col - dx * j, h.2⟩ else 0

private theorem affineSystem_rows (xs : Fin (dx + 1) → Fin dx → K) (ys : Fin (dx + 1) → Fin dy → K)
    (i : Fin (dx + 1)) (j : Fin dy) :
    (affineSystem (List.ofFn xs) (List.ofFn ys)).1 (i * dy + j) = affRow (xs i) j ∧
    (affineSystem (List.ofFn xs) (List.ofFn ys)).2 (i * dy + j) = ys i j := by
  set L := ((List.ofFn xs).zip (List.ofFn ys)).zipIdx with hL
  set ev : List ((((Fin dx → K) × (Fin dy → K)) × ℕ) × Fin dy) :=
    L.flatMap fun p => (List.finRange dy).map fun j => (p, j) with hev
  have hsys : affineSystem (List.ofFn xs) (List.ofFn ys) =
      ev.foldl (fun acc a =>
        (Function.update acc.1 (a.1.2 * dy + a.2) (affRow a.1.1.1 a.2),
         Function.update acc.2 (a.1.2 * dy + a.2) (a.1.1.2 a.2))) (fun _ _ => 0, fun _ => 0) := by
    rw [hev, List.foldl_flatMap, affineSystem]
    congr 1
    funext acc p
    rw [List.foldl_map]
    rfl
  replace hsys := hsys.trans (foldl_pair ev
    (fun (m : ℕ → ℕ → K) a => Function.update m (a.1.2 * dy + (a.2 : ℕ)) (affRow a.1.1.1 a.2))
    (fun (m : ℕ → K) a => Function.update m (a.1.2 * dy + (a.2 : ℕ)) (a.1.1.2 a.2)) _)
  have hnd : (ev.map fun a => a.1.2 * dy + (a.2 : ℕ)).Nodup := by
    rw [hev, List.map_flatMap, List.nodup_flatMap]
    constructor
    · intro p _
      rw [List.map_map]
      refine (List.nodup_finRange dy).map ?_
      intro a b hab
      simp only [Function.comp] at hab
      exact Fin.ext (by omega)
    · have h : (L.map Prod.snd).Pairwise (· < ·) := by
        rw [hL, List.zipIdx_map_snd]; exact List.pairwise_lt_range'
      rw [List.pairwise_map] at h
      refine h.imp ?_
      intro a b hab x hx hy
      simp only [List.mem_map, List.map_map, Function.comp] at hx hy
      obtain ⟨j, _, rfl⟩ := hx
      obtain ⟨j', _, hj'⟩ := hy
      have h1 : (a.2 + 1) * dy ≤ b.2 * dy := Nat.mul_le_mul_right _ hab
      rw [Nat.add_mul] at h1
      have := j.2; have := j'.2
      omega
  have hmem : (((xs i, ys i), (i : ℕ)), j) ∈ ev := by
    rw [hev, List.mem_flatMap]
    refine ⟨((xs i, ys i), (i : ℕ)), ?_, List.mem_map.2 ⟨j, List.mem_finRange j, rfl⟩⟩
    rw [hL, List.mem_zipIdx_iff_getElem?]
    rw [List.getElem?_zip_eq_some]
    exact ⟨by rw [List.getElem?_ofFn]; simp; omega, by rw [List.getElem?_ofFn]; simp; omega⟩
  rw [hsys]
  exact ⟨foldl_update ev (fun a => a.1.2 * dy + (a.2 : ℕ)) (fun a => affRow a.1.1.1 a.2) _ hnd hmem,
    foldl_update ev (fun a => a.1.2 * dy + (a.2 : ℕ)) (fun a => a.1.1.2 a.2) _ hnd hmem⟩

private def colA (j : Fin dy) (k : Fin dx) : Fin (dx * dy + dy) :=
  ⟨dx * j + k, by
    have h1 : dx * (j + 1) ≤ dx * dy := Nat.mul_le_mul_left _ j.2
    have := k.2; rw [Nat.mul_add] at h1; omega⟩

private def colB (j : Fin dy) : Fin (dx * dy + dy) := ⟨dx * dy + j, by have := j.2; omega⟩

private theorem affRow_sum (x : Fin dx → K) (j : Fin dy) (s : Fin (dx * dy + dy) → K) :
    ∑ c : Fin (dx * dy + dy), affRow x j c * s c = ∑ k, s (colA j k) * x k + s (colB j) := by
  have hj : dx * (j + 1) ≤ dx * dy := Nat.mul_le_mul_left _ j.2
  rw [Nat.mul_add, Nat.mul_one] at hj
  have split : ∀ c : Fin (dx * dy + dy), affRow x j c * s c =
      (if c = colB j then s c else 0) +
      (if h : dx * j ≤ (c : ℕ) ∧ (c : ℕ) - dx * j < dx then x ⟨c - dx * j, h.2⟩ * s c else 0) := by
    intro c
    unfold affRow
    by_cases h1 : (c : ℕ) = dy * dx + j
    · have : c = colB j := Fin.ext (by rw [h1, Nat.mul_comm]; rfl)
      rw [if_pos h1, if_pos this, dif_neg]
      · simp
      · rw [h1, Nat.mul_comm dy dx]; omega
    · have : c ≠ colB j := by
        intro h; apply h1; rw [h]; show dx * dy + _ = _; rw [Nat.mul_comm]
      rw [if_neg h1, if_neg this, zero_add]
      split_ifs <;> simp
  rw [Finset.sum_congr rfl fun c _ => split c, Finset.sum_add_distrib, Finset.sum_ite_eq' Finset.univ,
    if_pos (Finset.mem_univ _), add_comm]
  congr 1
  symm
  refine Finset.sum_of_injOn (fun k => colA j k) ?_ (by simp) ?_ ?_
  · intro a _ b _ hab
    simp only [colA, Fin.mk.injEq] at hab
    exact Fin.ext (by omega)
  · intro c _ hc
    rw [dif_neg]
    rintro ⟨h1, h2⟩
    apply hc
    refine ⟨⟨c - dx * j, h2⟩, by simp, Fin.ext ?_⟩
    simp only [colA]; omega
  · intro k _
    have hk := k.2
    rw [dif_pos (by simp only [colA]; omega), mul_comm]
    congr 2
    exact Fin.ext (by simp [colA])

/-- Every index below `dx*dy + dy` is a row `i * dy + j`. -/
private theorem row_split (r : Fin (dx * dy + dy)) :
    ∃ (i : Fin (dx + 1)) (j : Fin dy), (r : ℕ) = i * dy + j := by
  have hpos : 0 < dy := by
    rcases Nat.eq_zero_or_pos dy with h | h
    · have := r.2; subst h; simp at this
    · exact h
  refine ⟨⟨r / dy, ?_⟩, ⟨r % dy, Nat.mod_lt _ hpos⟩, ?_⟩
  · rw [Nat.div_lt_iff_lt_mul hpos, Nat.add_mul, Nat.one_mul]; exact r.2
  · exact (Nat.div_add_mod' _ _).symm

private def rowIdx (i : Fin (dx + 1)) (j : Fin dy) : Fin (dx * dy + dy) :=
  ⟨i * dy + j, by
    have h1 : (i : ℕ) * dy ≤ dx * dy := Nat.mul_le_mul_right _ (by omega)
    have := j.2; omega⟩

private theorem solve_iff (xs : Fin (dx + 1) → Fin dx → K) (ys : Fin (dx + 1) → Fin dy → K)
    (s : Fin (dx * dy + dy) → K) (rhs : Fin (dx * dy + dy) → K) :
    (Matrix.mulVec (fun r c : Fin (dx * dy + dy) =>
      (affineSystem (List.ofFn xs) (List.ofFn ys)).1 r c) s = rhs) ↔
    ∀ i j, ∑ k, s (colA j k) * xs i k + s (colB j) = rhs (rowIdx i j) := by
  constructor
  · intro h i j
    rw [← h]
    show _ = ∑ c : Fin (dx * dy + dy),
      (affineSystem (List.ofFn xs) (List.ofFn ys)).1 (rowIdx i j) c * s c
    rw [← affRow_sum]
    refine Finset.sum_congr rfl fun c _ => ?_
    congr 1
    exact (congrFun (affineSystem_rows xs ys i j).1 c).symm
  · intro h
    funext r
    obtain ⟨i, j, hr⟩ := row_split r
    have hr' : r = rowIdx i j := Fin.ext hr
    rw [hr', ← h i j, ← affRow_sum]
    show ∑ c : Fin (dx * dy + dy),
      (affineSystem (List.ofFn xs) (List.ofFn ys)).1 (rowIdx i j) c * s c = _
    refine Finset.sum_congr rfl fun c _ => ?_
    congr 1
    exact congrFun (affineSystem_rows xs ys i j).1 c

/-- An affine functional vanishing at `dx + 1` affinely independent points of `K^dx` is zero. -/
private theorem affine_zero {xs : Fin (dx + 1) → Fin dx → K} (hx : AffineIndependent K xs)
    (a : Fin dx → K) (b : K) (h : ∀ i, ∑ k, a k * xs i k + b = 0) : a = 0 ∧ b = 0 := by
  have hlin : LinearIndependent K (fun i : Fin dx => xs i.succ - xs 0) := by
    have h := (affineIndependent_iff_linearIndependent_vsub K xs 0).1 hx
    exact h.comp (fun i : Fin dx => (⟨i.succ, Fin.succ_ne_zero i⟩ : {x : Fin (dx+1) // x ≠ 0}))
      (by intro p q hpq; simpa using hpq)
  have hspan := hlin.span_eq_top_of_card_eq_finrank' (by simp)
  have ha : a = 0 := by
    let f : (Fin dx → K) →ₗ[K] K := Fintype.linearCombination K a |>.comp LinearMap.id
    have hf : ∀ v, f v = ∑ k, v k * a k := by
      intro v; simp [f, Fintype.linearCombination_apply]
    have hzero : f = 0 := by
      apply LinearMap.ext_on hspan
      rintro _ ⟨i, rfl⟩
      rw [hf]
      have h1 := h i.succ
      have h0 := h 0
      simp only [Pi.sub_apply, sub_mul, Finset.sum_sub_distrib, LinearMap.zero_apply]
      simp only [mul_comm (xs _ _)]
      linear_combination h1 - h0
    funext k
    have := congrArg (fun g => g (Pi.single k 1)) hzero
    simpa [hf, Pi.single_apply] using this
  refine ⟨ha, ?_⟩
  have := h 0
  simpa [ha] using this

/-- C10: for affinely independent `xs` (`dim_x + 1` points) and any `ys`, `make_affine_mapping` returns
`(A, b)` with `A x_i + b = y_i` for all `i`, and no other pair has this property. -/
theorem make_affine_mapping_spec (xs : Fin (dx + 1) → Fin dx → K) (ys : Fin (dx + 1) → Fin dy → K)
    (hx : AffineIndependent K xs) :
    ∃ A b, makeAffineMapping (List.ofFn xs) (List.ofFn ys) = some (A, b) ∧
      (∀ i, A.mulVec (xs i) + b = ys i) ∧
      ∀ A' b', (∀ i, Matrix.mulVec A' (xs i) + b' = ys i) → A' = A ∧ b' = b := by
  set mat : Matrix (Fin (dx * dy + dy)) (Fin (dx * dy + dy)) K := fun r c =>
      (affineSystem (List.ofFn xs) (List.ofFn ys)).1 r c with hmat
  set rhs : Fin (dx * dy + dy) → K := fun r => (affineSystem (List.ofFn xs) (List.ofFn ys)).2 r with hrhs
  have hinj : Function.Injective mat.mulVec := by
    intro s s' hss
    have h0 : mat.mulVec (s - s') = 0 := by rw [Matrix.mulVec_sub, hss, sub_self]
    have h1 := (solve_iff xs ys (s - s') 0).1 h0
    have h2 : ∀ j, (fun k => (s - s') (colA j k)) = 0 ∧ (s - s') (colB j) = 0 := fun j =>
      affine_zero hx _ _ fun i => h1 i j
    rw [← sub_eq_zero]
    funext c
    rcases Nat.lt_or_ge (c : ℕ) (dx * dy) with hc | hc
    · have hpos : 0 < dx := by
        rcases Nat.eq_zero_or_pos dx with h | h
        · subst h; simp at hc
        · exact h
      have hq : (c : ℕ) / dx < dy := Nat.div_lt_of_lt_mul hc
      have := congrFun (h2 ⟨c / dx, hq⟩).1 ⟨c % dx, Nat.mod_lt _ hpos⟩
      have e : colA (⟨c / dx, hq⟩ : Fin dy) ⟨c % dx, Nat.mod_lt _ hpos⟩ = c :=
        Fin.ext (Nat.div_add_mod _ _)
      simpa [e] using this
    · have hlt : (c : ℕ) - dx * dy < dy := by have := c.2; omega
      have := (h2 ⟨c - dx * dy, hlt⟩).2
      have e : colB (dx := dx) (⟨c - dx * dy, hlt⟩ : Fin dy) = c :=
        Fin.ext (by simp only [colB]; omega)
      simpa [e] using this
  have hunit : IsUnit mat.det := by
    rw [← Matrix.isUnit_iff_isUnit_det]
    exact Matrix.mulVec_injective_iff_isUnit.1 hinj
  have hsol : mat.mulVec (mat⁻¹.mulVec rhs) = rhs := by
    rw [Matrix.mulVec_mulVec, Matrix.mul_nonsing_inv _ hunit, Matrix.one_mulVec]
  set sol := mat⁻¹.mulVec rhs with hsoldef
  have hsat := (solve_iff xs ys sol rhs).1 hsol
  have hr : ∀ i j, rhs (rowIdx i j) = ys i j := fun i j => (affineSystem_rows xs ys i j).2
  have hmain : ∀ i, Matrix.mulVec (fun j k => sol (colA j k)) (xs i) + (fun j => sol (colB j)) = ys i := by
    intro i; funext j
    have := hsat i j
    rw [hr] at this
    exact this
  refine ⟨fun j k => sol (colA j k), fun j => sol (colB j), ?_, hmain, ?_⟩
  · unfold makeAffineMapping
    simp only [List.length_ofFn, ne_eq, not_true_eq_false, if_false]
    rw [if_neg (by rw [Nat.add_mul, Nat.one_mul]; omega), if_pos hunit]
    rfl
  · intro A' b' h
    have key : ∀ j, (fun k => A' j k - sol (colA j k)) = 0 ∧ b' j - sol (colB j) = 0 := by
      intro j
      refine affine_zero hx _ _ fun i => ?_
      have e1 := congrFun (h i) j
      have e2 := congrFun (hmain i) j
      have e1' : ∑ k, A' j k * xs i k + b' j = ys i j := e1
      have e2' : ∑ k, sol (colA j k) * xs i k + sol (colB j) = ys i j := e2
      simp only [sub_mul, Finset.sum_sub_distrib]
      linear_combination e1' - e2'
    constructor
    · funext j k
      exact sub_eq_zero.1 (congrFun (key j).1 k)
    · funext j
      exact sub_eq_zero.1 (key j).2

/-- C10: lists of different length are rejected. -/
theorem make_affine_mapping_length (xs : List (Fin dx → K)) (ys : List (Fin dy → K))
    (h : xs.length ≠ ys.length) : makeAffineMapping xs ys = none := by
  simp [makeAffineMapping, h]

/-- Non-vacuity: the vertices of the UFC simplex of any dimension are affinely independent. -/
theorem ufcVerts_affineIndependent (d : ℕ) : AffineIndependent K (ufcVerts K d) := by
  rw [affineIndependent_iff_linearIndependent_vsub K _ 0, Fintype.linearIndependent_iff]
  rintro g hg ⟨i, hi⟩
  obtain ⟨j, rfl⟩ := Fin.exists_succ_eq.2 hi
  have h := congrFun hg j
  rw [Finset.sum_apply, Finset.sum_eq_single ⟨j.succ, hi⟩] at h
  · simpa [ufcVerts] using h
  · rintro ⟨k, hk⟩ _ hne
    obtain ⟨l, rfl⟩ := Fin.exists_succ_eq.2 hk
    have : j ≠ l := by rintro rfl; exact hne rfl
    simp [ufcVerts, this]
  · simp

/-- Non-vacuity: the affine map from the UFC triangle to a triangle in space. -/
example (y0 y1 y2 : Fin 3 → ℚ) : ∃ A b,
    makeAffineMapping (List.ofFn (ufcVerts ℚ 2)) (List.ofFn ![y0, y1, y2]) = some (A, b) ∧ b = y0 := by
  obtain ⟨A, b, h, h1, _⟩ := make_affine_mapping_spec _ ![y0, y1, y2] (ufcVerts_affineIndependent 2)
  refine ⟨A, b, h, ?_⟩
  have := h1 0
  have h0 : ufcVerts ℚ 2 0 = 0 := by funext l; simp [ufcVerts]
  simpa [h0] using this

end C10

/-! ### C09 -/

section C09
variable {K : Type*} [Field K] {sub cd : ℕ}

theorem entityTransform_formula (vc : Fin (sub + 1) → Fin cd → K) (x : Fin sub → K) :
    entityTransform (ufcVerts K sub) vc x = fun l => vc 0 l + ∑ j, x j * (vc j.succ l - vc 0 l) := by
  have hA : (Matrix.of fun (i l : Fin sub) => (ufcVerts K sub i.succ l - ufcVerts K sub 0 l) /
      ∑ k, (ufcVerts K sub i.succ k - ufcVerts K sub 0 k) *
        (ufcVerts K sub i.succ k - ufcVerts K sub 0 k) : Matrix (Fin sub) (Fin sub) K) = 1 := by
    ext i l
    rw [Matrix.of_apply, Matrix.one_apply]
    by_cases h : i = l
    · subst h; simp [ufcVerts]
    · simp [ufcVerts, h, Ne.symm h]
  unfold entityTransform
  simp only [hA, Matrix.mul_one]
  funext l
  have h0 : ufcVerts K sub 0 = 0 := by funext l; simp [ufcVerts]
  rw [h0, Matrix.mulVec_zero, sub_zero]
  simp only [Pi.add_apply, Matrix.mulVec, dotProduct]
  congr 1
  exact Finset.sum_congr rfl fun j _ => mul_comm _ _

/-- C09: the transform of an entity of a cell takes the point with barycentric coordinates `c` in the
UFC reference sub-cell to the point with the same coordinates with respect to the entity's vertices.
(Any dimension, any vertices `vc` of the entity.) -/
theorem entity_transform_bary (vc : Fin (sub + 1) → Fin cd → K) (c : Fin (sub + 1) → K)
    (hc : ∑ i, c i = 1) :
    entityTransform (ufcVerts K sub) vc (fun l => ∑ i, c i * ufcVerts K sub i l)
      = fun l => ∑ i, c i * vc i l := by
  rw [entityTransform_formula]
  funext l
  have hx : ∀ j : Fin sub, ∑ i, c i * ufcVerts K sub i j = c j.succ := by
    intro j
    rw [Fin.sum_univ_succ]
    simp [ufcVerts]
  simp only [hx]
  rw [Fin.sum_univ_succ] at hc
  rw [Fin.sum_univ_succ (fun i => c i * vc i l)]
  simp only [mul_sub, Finset.sum_sub_distrib, ← Finset.sum_mul]
  linear_combination (-(vc 0 l)) * hc

/-- C09: vertices go to vertices, in order. -/
theorem entity_transform_vertex (vc : Fin (sub + 1) → Fin cd → K) (m : Fin (sub + 1)) :
    entityTransform (ufcVerts K sub) vc (ufcVerts K sub m) = vc m := by
  have := entity_transform_bary vc (fun i => if i = m then 1 else 0) (by simp)
  simpa using this

/-- C09: the transform is affine (preserves affine combinations). -/
theorem entity_transform_affine (ve : Fin (sub + 1) → Fin sub → K) (vc : Fin (sub + 1) → Fin cd → K)
    (x y : Fin sub → K) (s : K) :
    entityTransform ve vc (fun l => (1 - s) * x l + s * y l) =
      fun l => (1 - s) * entityTransform ve vc x l + s * entityTransform ve vc y l := by
  have e : (fun l => (1 - s) * x l + s * y l) = (1 - s) • x + s • y := rfl
  rw [e]
  unfold entityTransform
  funext l
  simp only [Matrix.mulVec_add, Matrix.mulVec_smul, Pi.add_apply, Pi.smul_apply, smul_eq_mul,
    Pi.sub_apply]
  ring

private theorem splitSlices_flatten {α : Type} (ns : List ℕ) (ps : List (List α))
    (h : List.Forall₂ (fun p n => List.length p = n) ps ns) : splitSlices ns ps.flatten = ps := by
  induction h with
  | nil => rfl
  | @cons p n ps ns hp _ ih => simp [splitSlices, ← hp, ih]

/-- C09 on tensor-product cells: the transform of the product entity with factor numbers `es`
(number `ravel es counts`) applied to a concatenation of points is the concatenation of the factor
transforms. -/
theorem tensor_transform {α : Type} (dims counts es : List ℕ) (sct : List (ℕ → List α → List α))
    (ps : List (List α)) (he : List.Forall₂ (· < ·) es counts)
    (hp : List.Forall₂ (fun p n => List.length p = n) ps dims) :
    tensorTransform dims counts sct (ravel es counts) ps.flatten =
      (List.zipWith (fun (t : List α → List α) p => t p)
        (List.zipWith (fun (t : ℕ → List α → List α) e => t e) sct es) ps).flatten := by
  rw [tensorTransform, unravel_ravel he, splitSlices_flatten _ _ hp]

/-- Non-vacuity: edge 0 of the triangle times the interval (a quadrilateral face of the prism): `es = [0, 0]`. -/
example : tensorTransform [1, 1] [3, 1]
    [fun i p => if i = 0 then [1 - p.headD 0, p.headD 0] else p, fun _ p => p]
      (ravel [0, 0] [3, 1]) [1/4, (1/3 : ℚ)] = [3/4, 1/4, 1/3] := by decide +kernel

end C09

/-! ### C11 -/

section C11

/-- Spec: `n` is orthogonal to `t`. -/
def orth {D : ℕ} (n t : Fin D → ℝ) : Prop := ∑ i, n i * t i = 0

/-- C11, triangle: for every nondegenerate facet the normal is orthogonal to the tangent and has unit
length. -/
theorem triangle_normal (v0 v1 : Fin 2 → ℝ) (h : v0 ≠ v1) :
    (∀ t ∈ computeTangents v0 [v1], orth (triangleNormal v0 v1) t) ∧ norm2 (triangleNormal v0 v1) = 1 := by
  set t := v1 - v0 with ht
  have hpos : 0 < t 1 * t 1 + t 0 * t 0 := by
    by_contra hc
    have h1 : t 1 = 0 := by nlinarith [sq_nonneg (t 1), sq_nonneg (t 0)]
    have h0 : t 0 = 0 := by nlinarith [sq_nonneg (t 1), sq_nonneg (t 0)]
    apply h
    funext i
    fin_cases i
    · have : v1 0 - v0 0 = 0 := h0
      simp; linarith
    · have : v1 1 - v0 1 = 0 := h1
      simp; linarith
  set n : Fin 2 → ℝ := ![t 1, -t 0] with hn
  have hnn : ∑ i, n i * n i = t 1 * t 1 + t 0 * t 0 := by simp [Fin.sum_univ_two, hn]
  have hs : norm2 n = Real.sqrt (t 1 * t 1 + t 0 * t 0) := by rw [norm2, hnn]
  have hsp : 0 < norm2 n := by rw [hs]; exact Real.sqrt_pos.2 hpos
  have hsq : norm2 n * norm2 n = t 1 * t 1 + t 0 * t 0 := by
    rw [hs]; exact Real.mul_self_sqrt hpos.le
  have hdef : triangleNormal v0 v1 = fun i => n i / norm2 n := rfl
  constructor
  · intro t' ht'
    simp only [computeTangents, List.map_cons, List.map_nil, List.mem_singleton] at ht'
    subst ht'
    rw [orth, hdef, Fin.sum_univ_two]
    simp only [hn, Matrix.cons_val_zero, Matrix.cons_val_one]
    rw [← ht]
    field_simp
    ring
  · rw [hdef, norm2, Fin.sum_univ_two]
    have : n 0 / norm2 n * (n 0 / norm2 n) + n 1 / norm2 n * (n 1 / norm2 n) = 1 := by
      have e0 : n 0 = t 1 := rfl
      have e1 : n 1 = -t 0 := rfl
      rw [e0, e1]
      field_simp
      nlinarith
    rw [this, Real.sqrt_one]

/-- C11, tetrahedron: for every nondegenerate facet the vector is orthogonal to both tangents, but its
length is `2`: the "unit normal" claim fails on every facet. -/
theorem tet_normal_partial (v0 v1 v2 : Fin 3 → ℝ) (h : cross (v1 - v0) (v2 - v0) ≠ 0) :
    (∀ t ∈ computeTangents v0 [v1, v2], orth (tetNormal v0 v1 v2) t) ∧
      norm2 (tetNormal v0 v1 v2) = 2 := by
  set n := cross (v1 - v0) (v2 - v0) with hn
  have hpos : 0 < ∑ i, n i * n i := by
    rw [Fin.sum_univ_three]
    by_contra hc
    apply h
    have h0 : n 0 = 0 := by nlinarith [sq_nonneg (n 0), sq_nonneg (n 1), sq_nonneg (n 2)]
    have h1 : n 1 = 0 := by nlinarith [sq_nonneg (n 0), sq_nonneg (n 1), sq_nonneg (n 2)]
    have h2 : n 2 = 0 := by nlinarith [sq_nonneg (n 0), sq_nonneg (n 1), sq_nonneg (n 2)]
    funext i; fin_cases i <;> assumption
  have hsp : 0 < norm2 n := Real.sqrt_pos.2 hpos
  have hsq : norm2 n * norm2 n = n 0 * n 0 + n 1 * n 1 + n 2 * n 2 := by
    rw [norm2, Real.mul_self_sqrt hpos.le, Fin.sum_univ_three]
  have hdef : tetNormal v0 v1 v2 = fun i => -2 * n i / norm2 n := rfl
  constructor
  · intro t ht
    simp only [computeTangents, List.map_cons, List.map_nil, List.mem_cons, List.not_mem_nil,
      or_false] at ht
    rw [orth, hdef, Fin.sum_univ_three]
    have e : ∀ t : Fin 3 → ℝ, n 0 * t 0 + n 1 * t 1 + n 2 * t 2 = 0 →
        -2 * n 0 / norm2 n * t 0 + -2 * n 1 / norm2 n * t 1 + -2 * n 2 / norm2 n * t 2 = 0 := by
      intro t ht
      field_simp
      linear_combination (-2) * ht
    apply e
    rcases ht with rfl | rfl
    · simp [hn, cross]; ring
    · simp [hn, cross]; ring
  · rw [hdef, norm2, Fin.sum_univ_three]
    have : -2 * n 0 / norm2 n * (-2 * n 0 / norm2 n) + -2 * n 1 / norm2 n * (-2 * n 1 / norm2 n) +
        -2 * n 2 / norm2 n * (-2 * n 2 / norm2 n) = 2 * 2 := by
      field_simp
      nlinarith
    rw [this, Real.sqrt_mul_self (by norm_num)]

/-- C11 is false for the UFC tetrahedron: facet 3 (vertices 0, 1, 2). -/
theorem tet_normal_not_unit :
    norm2 (tetNormal ![0, 0, 0] ![1, 0, 0] ![0, 1, 0]) ≠ 1 := by
  rw [(tet_normal_partial _ _ _ (by
    intro h
    have := congrFun h 2
    simp [cross] at this)).2]
  norm_num

/-- Non-vacuity: facet 0 of the UFC triangle. -/
example : (![1, 0] : Fin 2 → ℝ) ≠ ![0, 1] := by
  intro h; have := congrFun h 0; simp at this

end C11

/-! ### C12 -/

section C12
variable {K : Type*} [Field K] [LinearOrder K] [IsStrictOrderedRing K]

mutual
/-- Specification: `pt` is a convex combination of the vertices of the cell, factor-wise. -/
def InCell : ShapeTree → List K → Prop
  | .simplex d, pt => ∃ b : Fin (d + 1) → K, (∀ i, 0 ≤ b i) ∧ ∑ i, b i = 1 ∧
      pt = List.ofFn fun l => ∑ i, b i * ufcVerts K d i l
  | .prod cells, pt => InCells cells pt
/-- Specification for products: the point is a concatenation of points of the factors. -/
def InCells : List ShapeTree → List K → Prop
  | [], pt => pt = []
  | c :: cs, pt => ∃ p q, pt = p ++ q ∧ InCell c p ∧ InCells cs q
end

private theorem simplexContains_iff (pt : List K) (eps : K) :
    simplexContains pt eps = true ↔ pt.sum - eps ≤ 1 ∧ ∀ c ∈ pt, c + eps ≥ 0 := by
  have key : ∀ (pt : List K) (r : Bool), pt.foldl (fun result c => result && decide (c + eps ≥ 0)) r = true
      ↔ r = true ∧ ∀ c ∈ pt, c + eps ≥ 0 := by
    intro pt
    induction pt with
    | nil => intro r; simp
    | cons c pt ih =>
      intro r
      rw [List.foldl_cons, ih]
      simp [and_assoc]
  rw [simplexContains, key]; simp

private theorem simplex_iff (d : ℕ) (pt : List K) (hlen : pt.length = d) :
    simplexContains pt 0 = true ↔ InCell (.simplex d) pt := by
  rw [simplexContains_iff]
  have hv : ∀ (b : Fin (d + 1) → K) (l : Fin d), ∑ i, b i * ufcVerts K d i l = b l.succ := by
    intro b l
    rw [Fin.sum_univ_succ]; simp [ufcVerts]
  simp only [InCell, hv, sub_zero, add_zero, ge_iff_le]
  subst hlen
  constructor
  · rintro ⟨h1, h2⟩
    refine ⟨Fin.cons (1 - pt.sum) pt.get, ?_, ?_, ?_⟩
    · intro i
      refine Fin.cases ?_ (fun j => ?_) i
      · simpa using h1
      · simpa using h2 _ (List.getElem_mem _)
    · rw [Fin.sum_univ_succ]
      simp only [Fin.cons_zero, Fin.cons_succ]
      have : ∑ i : Fin pt.length, pt.get i = pt.sum := by
        conv_rhs => rw [← List.ofFn_get pt]
        rw [List.sum_ofFn]
      rw [this]; ring
    · simp only [Fin.cons_succ]
      exact (List.ofFn_get pt).symm
  · rintro ⟨b, hb, hs, hpt⟩
    rw [hpt]
    constructor
    · rw [List.sum_ofFn]
      rw [Fin.sum_univ_succ] at hs
      linarith [hb 0]
    · intro c hc
      obtain ⟨i, rfl⟩ := (List.mem_ofFn' _ _).1 hc
      exact hb _

mutual
private theorem inCell_length : ∀ (t : ShapeTree) (pt : List K), InCell t pt → pt.length = t.dim
  | .simplex d, pt, h => by
    simp only [InCell] at h
    obtain ⟨b, _, _, rfl⟩ := h
    simp [ShapeTree.dim]
  | .prod cells, pt, h => by
    simp only [InCell] at h
    simp only [ShapeTree.dim]
    exact inCells_length cells pt h
private theorem inCells_length : ∀ (cs : List ShapeTree) (pt : List K), InCells cs pt →
    pt.length = ShapeTree.dims cs
  | [], pt, h => by simp only [InCells] at h; simp [h, ShapeTree.dims]
  | c :: cs, pt, h => by
    simp only [InCells] at h
    obtain ⟨p, q, rfl, h1, h2⟩ := h
    simp [ShapeTree.dims, inCell_length c p h1, inCells_length cs q h2]
end

mutual
private theorem containsPoint_total : ∀ (t : ShapeTree) (pt : List K), pt.length = t.dim →
    ∃ r, containsPoint t pt 0 = some r ∧ (r = true ↔ InCell t pt)
  | .simplex d, pt, h => by
    simp only [ShapeTree.dim] at h
    exact ⟨simplexContains pt 0, by simp [containsPoint], simplex_iff d pt h⟩
  | .prod cells, pt, h => by
    simp only [ShapeTree.dim] at h
    obtain ⟨r, h1, h2⟩ := containsList_total cells pt h true
    refine ⟨r, by simp only [containsPoint]; rw [if_pos h, h1], ?_⟩
    simp only [InCell]
    rw [h2]; simp
private theorem containsList_total : ∀ (cs : List ShapeTree) (pt : List K),
    pt.length = ShapeTree.dims cs → ∀ acc : Bool,
    ∃ r, containsList cs pt 0 acc = some r ∧ (r = true ↔ acc = true ∧ InCells cs pt)
  | [], pt, h, acc => by
    simp only [ShapeTree.dims, List.length_eq_zero_iff] at h
    exact ⟨acc, by simp [containsList], by simp [InCells, h]⟩
  | c :: cs, pt, h, acc => by
    simp only [ShapeTree.dims] at h
    obtain ⟨r, h1, h2⟩ := containsPoint_total c (pt.take c.dim) (by simp; omega)
    obtain ⟨r', h3, h4⟩ := containsList_total cs (pt.drop c.dim) (by simp; omega) (acc && r)
    refine ⟨r', by simp only [containsList, h1, Option.bind_eq_bind, Option.bind_some, h3], ?_⟩
    rw [h4]
    simp only [Bool.and_eq_true, h2, InCells]
    constructor
    · rintro ⟨⟨ha, hc⟩, hcs⟩
      exact ⟨ha, _, _, (List.take_append_drop c.dim pt).symm, hc, hcs⟩
    · rintro ⟨ha, p, q, rfl, hc, hcs⟩
      have hp := inCell_length c p hc
      rw [← hp]
      simp only [List.take_left', List.drop_left']
      simp [ha, hc, hcs]
end

/-- C12: with zero tolerance, `contains_point` answers whether the point is in the closed cell, for every
UFC simplex and every (nested) tensor product. -/
theorem contains_point_iff (t : ShapeTree) (pt : List K) (h : pt.length = t.dim) :
    containsPoint t pt 0 = some true ↔ InCell t pt := by
  obtain ⟨r, h1, h2⟩ := containsPoint_total t pt h
  rw [h1, ← h2]; simp

mutual
private theorem mono_point : ∀ (t : ShapeTree) (pt : List K) (e e' : K), e ≤ e' →
    containsPoint t pt e = some true → containsPoint t pt e' = some true
  | .simplex d, pt, e, e', he, h => by
    simp only [containsPoint, Option.some.injEq, simplexContains_iff] at h ⊢
    exact ⟨by linarith [h.1], fun c hc => by linarith [h.2 c hc]⟩
  | .prod cells, pt, e, e', he, h => by
    simp only [containsPoint] at h ⊢
    split_ifs at h ⊢ with hl
    exact (mono_list cells pt e e' he true true h).2 (fun _ => rfl)
private theorem mono_list : ∀ (cs : List ShapeTree) (pt : List K) (e e' : K), e ≤ e' → ∀ acc acc' : Bool,
    containsList cs pt e acc = some true →
      acc = true ∧ ((acc = true → acc' = true) → containsList cs pt e' acc' = some true)
  | [], pt, e, e', he, acc, acc', h => by
    simp only [containsList, Option.some.injEq] at h ⊢
    exact ⟨h, fun f => f h⟩
  | c :: cs, pt, e, e', he, acc, acc', h => by
    simp only [containsList] at h ⊢
    rcases hr : containsPoint c (pt.take c.dim) e with _ | r
    · rw [hr] at h; simp at h
    · rw [hr] at h
      simp only [Option.bind_eq_bind, Option.bind_some] at h
      have h1 := (mono_list cs (pt.drop c.dim) e e' he (acc && r) (acc && r) h).1
      simp only [Bool.and_eq_true] at h1
      obtain ⟨ha, rfl⟩ := h1
      refine ⟨ha, fun f => ?_⟩
      rw [mono_point c _ e e' he hr]
      simp only [Option.bind_eq_bind, Option.bind_some]
      exact (mono_list cs (pt.drop c.dim) e e' he (acc && true) (acc' && true) h).2
        (fun _ => by simp [f ha])
end

/-- C12: enlarging the tolerance never loses a point. -/
theorem contains_point_mono (t : ShapeTree) (pt : List K) (e e' : K) (he : e ≤ e')
    (h : containsPoint t pt e = some true) : containsPoint t pt e' = some true :=
  mono_point t pt e e' he h

/-- Non-vacuity: a point of the prism (triangle × interval), and one outside. -/
example : containsPoint (.prod [.simplex 2, .simplex 1]) ([1/3, 1/3, 1] : List ℚ) 0 = some true := by
  decide +kernel
example : containsPoint (.prod [.simplex 2, .simplex 1]) ([2/3, 2/3, 1] : List ℚ) 0 = some false := by
  decide +kernel

end C12
end FIAT
