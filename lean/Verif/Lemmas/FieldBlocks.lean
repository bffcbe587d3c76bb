/-
Dofs of the entities for fields of any value shape.
-/
import Verif.Lemmas.SymTensor

namespace FIAT
open MvPolynomial
section
variable {D : ℕ} {Cp : Type} [Fintype Cp]

/-- Specification: applied to a field `u` of the space `V`, the dofs of entity `(d, e)`, in the order of `entity_ids[d][e]`, give the
list `F u` of numbers. -/
def FieldDofsOf (comp : Cp → List ℕ) (V : (Cp → MvPolynomial (Fin D) ℝ) → Prop) (nodes : List (Functional ℝ (Fin D → ℝ)))
    (ids : EntityIds ℕ) (d e : ℕ) (F : (Cp → MvPolynomial (Fin D) ℝ) → List ℝ) : Prop :=
  ∃ l, ids.at? d e = some l ∧ ∀ u, V u → l.map (fun i => (nodes[i]?).map fun node => node.onField (fieldC comp u)) = (F u).map some

/-- Specification: every dof of every sub-entity of the entity with vertices `t` (itself included) is zero on `u`. -/
def FieldZeroOnClosure (comp : Cp → List ℕ) (s : SimplexCell (Fin D → ℝ)) (nodes : List (Functional ℝ (Fin D → ℝ))) (ids : EntityIds ℕ)
    (t : List ℕ) (u : Cp → MvPolynomial (Fin D) ℝ) : Prop :=
  ∀ d e t', HasEntity s.topo d e t' → (∀ a ∈ t', a ∈ t) → ∀ l, ids.at? d e = some l → ∀ i ∈ l, ∀ node, nodes[i]? = some node →
    node.onField (fieldC comp u) = 0

theorem EntityBlocks.fieldDofsOf {comp : Cp → List ℕ} {V : (Cp → MvPolynomial (Fin D) ℝ) → Prop} {s : SimplexCell (Fin D → ℝ)}
    {L : List (ℕ × ℕ)} {blk : ℕ × ℕ → List (Functional ℝ (Fin D → ℝ))}
    {nodes : List (Functional ℝ (Fin D → ℝ))} {ids : EntityIds ℕ} (h : EntityBlocks s.topo L blk nodes ids) {d e : ℕ} (hm : (d, e) ∈ L)
    (F : (Cp → MvPolynomial (Fin D) ℝ) → List ℝ) (hF : ∀ u, V u → (blk (d, e)).map (fun node => node.onField (fieldC comp u)) = F u) :
    FieldDofsOf comp V nodes ids d e F := by
  obtain ⟨-, -, h3⟩ := h.layout
  obtain ⟨l, h1, h2⟩ := h3 d e hm
  refine ⟨l, h1, fun u hu => ?_⟩
  rw [← hF u hu]
  have := congrArg (List.map (Option.map fun node : Functional ℝ (Fin D → ℝ) => node.onField (fieldC comp u))) h2
  rw [List.map_map, List.map_map] at this
  rw [List.map_map]
  exact this

theorem EntityBlocks.field_zero_closure {comp : Cp → List ℕ} {s : SimplexCell (Fin D → ℝ)} {L : List (ℕ × ℕ)}
    {blk : ℕ × ℕ → List (Functional ℝ (Fin D → ℝ))}
    {nodes : List (Functional ℝ (Fin D → ℝ))} {ids : EntityIds ℕ} (h : EntityBlocks s.topo L blk nodes ids) {t : List ℕ}
    {u : Cp → MvPolynomial (Fin D) ℝ} (hz : FieldZeroOnClosure comp s nodes ids t u) {d e : ℕ} {t' : List ℕ}
    (he : HasEntity s.topo d e t')
    (hm : (d, e) ∈ L) (hsub : ∀ a ∈ t', a ∈ t) : ∀ node ∈ blk (d, e), node.onField (fieldC comp u) = 0 := by
  obtain ⟨-, -, h3⟩ := h.layout
  obtain ⟨l, h1, h2⟩ := h3 d e hm
  intro node hn
  have : some node ∈ l.map (fun i => nodes[i]?) := by rw [h2]; exact List.mem_map_of_mem hn
  obtain ⟨i, hi, hi'⟩ := List.mem_map.1 this
  exact hz d e t' he hsub l h1 i hi node hi'

theorem field_closure_of_all {comp : Cp → List ℕ} {s : SimplexCell (Fin D → ℝ)} {nodes : List (Functional ℝ (Fin D → ℝ))} (ids : EntityIds ℕ)
    {u : Cp → MvPolynomial (Fin D) ℝ} (hz : ∀ l ∈ nodes, l.onField (fieldC comp u) = 0) (t : List ℕ) :
    FieldZeroOnClosure comp s nodes ids t u :=
  fun _ _ _ _ _ _ _ _ _ node hn => hz node (List.mem_of_getElem? hn)

end

section
variable {D : ℕ}

/-- Specification: the edges of an entity, as vectors: for every pair of its vertices, the later one minus the earlier one. -/
def edgeVectors : List (Fin D → ℝ) → List (Fin D → ℝ)
  | [] => []
  | a :: l => l.map (fun b => b - a) ++ edgeVectors l

theorem edgeVectors_length (l : List (Fin D → ℝ)) : (edgeVectors l).length = l.length.choose 2 := by
  induction l with
  | nil => rfl
  | cons a l ih =>
    rw [edgeVectors, List.length_append, List.length_map, ih, List.length_cons, Nat.choose_succ_succ' l.length 1, Nat.choose_one_right]

theorem mem_edgeVectors {v : ℕ → Fin D → ℝ} {t : List ℕ} {w : Fin D → ℝ} (h : w ∈ edgeVectors (t.map v)) :
    ∃ a ∈ t, ∃ b ∈ t, w = v b - v a := by
  induction t with
  | nil => simp [edgeVectors] at h
  | cons a t ih =>
    rw [List.map_cons, edgeVectors, List.mem_append] at h
    rcases h with h | h
    · simp only [List.map_map, List.mem_map, Function.comp_apply] at h
      obtain ⟨b, hb, rfl⟩ := h
      exact ⟨a, by simp, b, by simp [hb], rfl⟩
    · obtain ⟨c, hc, b, hb, rfl⟩ := ih h
      exact ⟨c, by simp [hc], b, by simp [hb], rfl⟩

theorem edgeVectors_mem {v : ℕ → Fin D → ℝ} {t : List ℕ} {a b : ℕ} (ha : a ∈ t) (hb : b ∈ t) (hab : a ≠ b) :
    v b - v a ∈ edgeVectors (t.map v) ∨ v a - v b ∈ edgeVectors (t.map v) := by
  induction t with
  | nil => simp at ha
  | cons c t ih =>
    simp only [List.map_cons, edgeVectors, List.mem_append]
    rcases List.mem_cons.1 ha with rfl | ha'
    · rcases List.mem_cons.1 hb with rfl | hb'
      · exact absurd rfl hab
      · exact Or.inl (Or.inl (List.mem_map.2 ⟨v b, List.mem_map_of_mem hb', rfl⟩))
    · rcases List.mem_cons.1 hb with rfl | hb'
      · exact Or.inr (Or.inl (List.mem_map.2 ⟨v a, List.mem_map_of_mem ha', rfl⟩))
      · exact (ih ha' hb').imp Or.inr Or.inr

private theorem pairs_edge (vs : List (Fin D → ℝ)) (d : ℕ) (h : vs.length = d + 1) :
    ((List.range d).flatMap fun source => (List.range' (source + 1) (d + 1 - (source + 1))).map fun dest => (source, dest)).map
      (fun sd => vs.getD sd.2 0 - vs.getD sd.1 0) = edgeVectors vs := by
  induction d generalizing vs with
  | zero =>
    match vs, h with
    | [a], _ => rfl
  | succ d ih =>
    match vs, h with
    | a :: vs, h =>
      have hl : vs.length = d + 1 := by simpa using h
      rw [edgeVectors, ← ih vs hl, List.range_succ_eq_map, List.flatMap_cons, List.map_append]
      congr 1
      · rw [List.map_map]
        apply List.ext_getElem
        · simp [hl]
        · intro i h1 h2
          simp [List.getD_eq_getElem _ _ (show i < vs.length by simpa using h2)]
          rw [Nat.add_comm, List.getElem?_cons_succ, List.getElem?_eq_getElem (by simpa using h2)]
          rfl
      · simp only [List.flatMap_map, List.map_flatMap, List.map_map]
        refine List.flatMap_congr fun x hx => ?_
        have hx := List.mem_range.1 hx
        rw [show d + 1 + 1 - (x.succ + 1) = d + 1 - (x + 1) by omega, show x.succ + 1 = (x + 1) + 1 from rfl,
          List.range'_succ_left, List.map_map]
        rfl

theorem face_edge_tangents_spec {s : SimplexCell (Fin D → ℝ)} (hs : ProperSimplex ℝ s) {d e : ℕ} {t : List ℕ}
    (h : HasEntity s.topo d e t) : faceEdgeTangents s d e = some (edgeVectors (t.map s.v)) := by
  obtain ⟨τ, t1, t2, rfl, t4⟩ := entity_tuple hs h
  have e1 : (List.ofFn τ).map s.v = List.ofFn fun j => s.v (τ j) := by rw [List.map_ofFn]; rfl
  rw [e1]
  set vs := List.ofFn fun j => s.v (τ j) with hvs
  have hl : vs.length = d + 1 := by simp [hvs]
  unfold faceEdgeTangents
  rw [t4, Option.bind_some, ← pairs_edge vs d hl]
  refine mapM_some_map _ _ _ fun q hq => ?_
  rw [List.mem_flatMap] at hq
  obtain ⟨a, ha, hq⟩ := hq
  rw [List.mem_map] at hq
  obtain ⟨b, hb, rfl⟩ := hq
  have ha := List.mem_range.1 ha
  have hb := List.mem_range'_1.1 hb
  rw [List.getElem?_eq_getElem (by omega : b < vs.length), List.getElem?_eq_getElem (by omega : a < vs.length),
    List.getD_eq_getElem _ _ (by omega : b < vs.length), List.getD_eq_getElem _ _ (by omega : a < vs.length)]
  rfl

end
end FIAT
