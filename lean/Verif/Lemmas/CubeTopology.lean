/-
Symmetries of the topology of the quadrilateral and the hexahedron.
-/
import Verif.Props.FlatElement

namespace FIAT

/-- Vertex `t'[j]` for the vertex `t[j]`. -/
def translate (t t' : List ℕ) (x : ℕ) : ℕ := (t'[t.idxOf x]?).getD 0

/-- Any two entities of the same dimension are related by an affine map which permutes or fixes coordinates, maps the vertices of one to
the vertices of the other, in order, and maps sub-entities to sub-entities. -/
def CubeLike (c : CellData ℝ) (n : ℕ) : Prop :=
  ∀ d e e' t t', HasEntity c.topo d e t → HasEntity c.topo d e' t' →
    t.map (translate t t') = t' ∧ (∀ x ∈ t, translate t' t (translate t t' x) = x) ∧
    (∃ (M : Fin n → Fin n → ℝ) (b : Fin n → ℝ), (∀ j i i', M i j ≠ 0 → M i' j ≠ 0 → i = i') ∧
      ∀ x ∈ t, ∀ i : Fin n, c.coord (translate t t' x) i = b i + ∑ j, M i j * c.coord x j) ∧
    ∀ d1 e1 t1, HasEntity c.topo d1 e1 t1 → (∀ x ∈ t1, x ∈ t) → ∃ e1', HasEntity c.topo d1 e1' (t1.map (translate t t'))

/-- Integer coordinates. -/
def coordZ (c : CellData ℤ) (a i : ℕ) : ℤ := (((c.verts[a]?).getD [])[i]?).getD 0

/-- The matrix of the map: `∑ m, a'_m a_mᵀ`, the axes being `v (t[2^m]) - v (t[0])`. -/
def cubeM (c : CellData ℤ) (t t' : List ℕ) (i j : ℕ) : ℤ :=
  ((List.range 3).map fun m => match t[2 ^ m]?, t'[2 ^ m]? with
    | some a, some a' => (coordZ c a' i - coordZ c (t'.headD 0) i) * (coordZ c a j - coordZ c (t.headD 0) j)
    | _, _ => 0).sum

/-- The translation. -/
def cubeB (c : CellData ℤ) (n : ℕ) (t t' : List ℕ) (i : ℕ) : ℤ :=
  coordZ c (t'.headD 0) i - ((List.range n).map fun j => cubeM c t t' i j * coordZ c (t.headD 0) j).sum

/-- A computable version. -/
def cubeCheck (c : CellData ℤ) (n : ℕ) : Bool :=
  c.topo.all fun p => p.2.all fun q => p.2.all fun q' =>
    (q.2.map (translate q.2 q'.2) == q'.2) && (q.2.all fun x => translate q'.2 q.2 (translate q.2 q'.2 x) == x) &&
    ((List.range n).all fun j => (List.range n).all fun i => (List.range n).all fun i' =>
      cubeM c q.2 q'.2 i j == 0 || cubeM c q.2 q'.2 i' j == 0 || i == i') &&
    (q.2.all fun x => (List.range n).all fun i => coordZ c (translate q.2 q'.2 x) i ==
      cubeB c n q.2 q'.2 i + ((List.range n).map fun j => cubeM c q.2 q'.2 i j * coordZ c x j).sum) &&
    c.topo.all fun p1 => p1.2.all fun q1 => !(q1.2.all fun x => q.2.contains x) ||
      p1.2.any fun q1' => q1'.2 == q1.2.map (translate q.2 q'.2)

theorem cubeLike_of_check {c : CellData ℝ} {z : CellData ℤ} {n : ℕ} (hwf : c.topo.WF) (htop : c.topo = z.topo)
    (hco : ∀ a i, c.coord a i = coordZ z a i) (h : cubeCheck z n = true) : CubeLike c n := by
  rintro d e e' t t' ⟨es, h1, h2⟩ ⟨es', h1', h2'⟩
  obtain rfl : es = es' := Option.some.inj (h1.symm.trans h1')
  unfold cubeCheck at h
  rw [List.all_eq_true] at h
  have h3 := h (d, es) (by rw [← htop]; exact Dict.mem_of_get? h1)
  rw [List.all_eq_true] at h3
  have h4 := h3 (e, t) (Dict.mem_of_get? h2)
  rw [List.all_eq_true] at h4
  have h5 := h4 (e', t') (Dict.mem_of_get? h2')
  simp only [Bool.and_eq_true, beq_iff_eq, List.all_eq_true, Bool.or_eq_true, List.mem_range, List.any_eq_true, Bool.not_eq_true'] at h5
  obtain ⟨⟨⟨⟨h6, h6'⟩, h7⟩, h8⟩, h9⟩ := h5
  have hsum : ∀ f : ℕ → ℤ, (((List.range n).map f).sum : ℤ) = ∑ j : Fin n, f j := by
    intro f
    rw [← List.sum_toFinset _ List.nodup_range, List.toFinset_range, Finset.sum_range]
  refine ⟨h6, h6', ⟨fun i j => (cubeM z t t' i j : ℝ), fun i => (cubeB z n t t' i : ℝ), fun j i i' q1 q2 => ?_, fun x hx i => ?_⟩, ?_⟩
  · rcases h7 j j.2 i i.2 i' i'.2 with (q | q) | q
    · exact absurd (by beta_reduce; rw [q]; exact Int.cast_zero) q1
    · exact absurd (by beta_reduce; rw [q]; exact Int.cast_zero) q2
    · exact Fin.ext q
  · have := h8 x hx i i.2
    rw [hsum] at this
    rw [hco, this]
    push_cast
    congr 1
    exact Finset.sum_congr rfl fun j _ => by rw [hco]
  · rintro d1 e1 t1 ⟨es1, k1, k2⟩ hsub
    rcases h9 (d1, es1) (by rw [← htop]; exact Dict.mem_of_get? k1) (e1, t1) (Dict.mem_of_get? k2) with q | ⟨q1', m, q⟩
    · exfalso
      rw [Bool.eq_false_iff] at q
      apply q
      rw [List.all_eq_true]
      intro x hx
      exact List.contains_iff_mem.2 (hsub x hx)
    · refine ⟨q1'.1, es1, k1, ?_⟩
      rw [← q]
      exact Dict.get?_of_mem (hwf.2 _ (Dict.mem_of_get? k1)) m

theorem coord_cast {c : CellData ℝ} {z : CellData ℤ} (h : c.verts = z.verts.map fun v => v.map fun (x : ℤ) => (x : ℝ)) (a i : ℕ) :
    c.coord a i = coordZ z a i := by
  unfold CellData.coord coordZ
  rw [h, List.getElem?_map]
  cases z.verts[a]? with
  | none => simp
  | some v =>
    simp only [Option.map_some, Option.getD_some, List.getElem?_map]
    cases v[i]? <;> simp

theorem cubeLike_quadrilateral : CubeLike (ufcQuadrilateral : CellData ℝ) 2 :=
  cubeLike_of_check (z := ufcQuadrilateral) good_quadrilateral.wf rfl
    (coord_cast (by simp [ufcQuadrilateral, tensorProductCell, pyProduct, ufcInterval])) (by decide +kernel)

theorem cubeLike_hexahedron : CubeLike (ufcHexahedron : CellData ℝ) 3 :=
  cubeLike_of_check (z := ufcHexahedron) good_hexahedron.wf rfl
    (coord_cast (by simp [ufcHexahedron, tensorProductCell, pyProduct, ufcInterval])) (by decide +kernel)

end FIAT
