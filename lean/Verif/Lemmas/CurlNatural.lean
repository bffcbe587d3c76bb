/-
C68: the edge and face nodes of H(curl) elements depend only on the tangential trace, pulled back to the reference entity, and in
the same way for every cell.
-/
import Verif.Props.MeshSpec

namespace FIAT
open MvPolynomial
section
variable {D : ℕ}

theorem onField_sub (l : Functional ℝ (Fin D → ℝ)) (w w' : Fin D → MvPolynomial (Fin D) ℝ) :
    l.onField (fieldOf (w - w')) = l.onField (fieldOf w) - l.onField (fieldOf w') := by
  have h := onField_comb l ![1, -1] ![w, w']
  rw [Fin.sum_univ_two, Fin.sum_univ_two] at h
  simp only [Matrix.cons_val_zero, Matrix.cons_val_one, one_smul, neg_smul, one_mul, neg_mul, ← sub_eq_add_neg] at h
  exact h

theorem mapM_map_mem {α β : Type} (f : α → Option β) (F : α → β) (l : List α) (h : l.mapM f = some (l.map F)) : ∀ a ∈ l, f a = some (F a) := by
  induction l with
  | nil => simp
  | cons a l ih =>
    rw [List.mapM_cons] at h
    obtain ⟨b, h1, h⟩ := Option.bind_eq_some_iff.1 h
    obtain ⟨bs, h2, h⟩ := Option.bind_eq_some_iff.1 h
    rw [List.map_cons] at h
    obtain ⟨rfl, rfl⟩ := List.cons.inj (Option.some.inj h)
    intro c hc
    rcases List.mem_cons.1 hc with rfl | hc
    · exact h1
    · exact ih h2 c hc

/-- The edge nodes as functions of the tangential trace. -/
theorem edge_natural (hD : 2 ≤ D) {gj : ℕ → ℕ → List ℝ} (hgj : NodesOK gj) (k : ℕ) (v : DualVariant)
    (hv : ∀ q, v = .integral q → k + 1 ≤ q) :
    ∃ Φ : (Fin 1 → MvPolynomial (Fin 1) ℝ) → List ℝ, ∀ (s : SimplexCell (Fin D → ℝ)) F, ProperSimplex ℝ s → NumberedSimplex s →
      edgeBlocks gj s k v = some ((List.range ((D + 1).choose 2)).map F) →
      ∀ e (τ : Fin 2 → ℕ), HasEntity s.topo 1 e (List.ofFn τ) → ∀ w : Fin D → MvPolynomial (Fin D) ℝ,
        (F e).map (fun a => a.onField (fieldOf w)) = Φ (tangPull (fun j => s.v (τ j)) w) := by
  have key : ∀ (s : SimplexCell (Fin D → ℝ)) (F : ℕ → List (Functional ℝ (Fin D → ℝ))) (f : ℕ → Option (List (Functional ℝ (Fin D → ℝ)))),
      NumberedSimplex s → (List.range ((D + 1).choose 2)).mapM f = some ((List.range ((D + 1).choose 2)).map F) →
      ∀ e (τ : Fin 2 → ℕ), HasEntity s.topo 1 e (List.ofFn τ) → f e = some (F e) := by
    intro s F f hnum h e τ he
    have hlt : e < (D + 1).choose 2 := ((hnum.1 1 (by omega)).2 e).1 ⟨_, he⟩
    exact mapM_map_mem f F _ h e (List.mem_range.2 hlt)
  have hnE : ∀ s : SimplexCell (Fin D → ℝ), NumberedSimplex s → numEnts s 1 = some ((D + 1).choose 2) := fun s hnum => (hnum.1 1 (by omega)).1
  cases v with
  | point =>
    refine ⟨fun q => (refLattice 1 (k + 2)).map fun y => eval y (q 0), ?_⟩
    intro s F hs hnum h e τ he w
    simp only [edgeBlocks, hnE s hnum, Option.bind_some] at h
    have hb := key s F _ hnum h e τ he
    obtain ⟨τ', t1, t2, t3, t4⟩ := entity_tuple hs he
    obtain rfl := ofFn_inj' t3
    unfold edgePointNodes at hb
    rw [make_points_ref hs le_rfl (by omega) τ t4, Option.bind_some, edgeTangent_ref τ t4, Option.map_some, Option.some.injEq] at hb
    rw [← hb, List.map_map, List.map_map]
    refine List.map_congr_left fun y _ => ?_
    simp only [Function.comp]
    rw [point_direction_field, eval_edge]
  | integral q =>
    have hq := hv q rfl
    obtain ⟨G, g1, g2, g3, g4, g5⟩ := ufc_cell_spec (d := 1) (by omega)
    obtain ⟨Q, q1, q2, q3, q4⟩ := simplex_rule_spec hgj (D := 1) (by omega) (ufcVerts ℝ 1) g5 q (by omega)
    obtain ⟨S, T, s1, s2, φ, s3, s4⟩ := scalar_values (by omega) G g2 g3 k Q.pts
    rw [← g4] at q1
    refine ⟨fun p => (List.finRange ((k + 1).choose 1)).map fun i => quadSum (zipRule Q.pts Q.wts (T i ())) fun y => eval y (p 0), ?_⟩
    intro s F hs hnum h e τ he w
    simp only [edgeBlocks, g1, q1, s1, s2, hnE s hnum, Option.bind_eq_bind, Option.bind_some] at h
    have hb := key s F _ hnum h e τ he
    obtain ⟨τ', t1, t2, t3, t4⟩ := entity_tuple hs he
    obtain rfl := ofFn_inj' t3
    unfold edgeMomentNodes at hb
    rw [mapToEntity_ref τ t4, Option.bind_some, edgeTangent_ref τ t4, Option.map_some, Option.some.injEq] at hb
    rw [← hb, List.map_map]
    refine List.map_congr_left fun i _ => ?_
    simp only [Function.comp]
    rw [moment_direction_field _ _ _ (by
      rw [zipRule_points _ _ (by rw [List.length_map, q3])]
      exact q4.map (entMap_injective hs τ t1 t2)), quadSum_zip_map]
    simp only [eval_edge]

open Classical in
/-- The face nodes of the first kind element as functions of the tangential trace. -/
theorem face_natural {gj : ℕ → ℕ → List ℝ} (hgj : NodesOK gj) (k : ℕ) (hk : 0 < k) (v : DualVariant)
    (hv : ∀ q, v = .integral q → k + 1 ≤ q) :
    ∃ Φ : (Fin 2 → MvPolynomial (Fin 2) ℝ) → List ℝ, ∀ (s : SimplexCell (Fin 3 → ℝ)) F, ProperSimplex ℝ s → NumberedSimplex s →
      faceBlocks gj s k v = some ((List.range 4).map F) →
      ∀ e (τ : Fin 3 → ℕ), HasEntity s.topo 2 e (List.ofFn τ) → ∀ w : Fin 3 → MvPolynomial (Fin 3) ℝ,
        (F e).map (fun a => a.onField (fieldOf w)) = Φ (tangPull (fun j => s.v (τ j)) w) := by
  have key : ∀ (s : SimplexCell (Fin 3 → ℝ)) (F : ℕ → List (Functional ℝ (Fin 3 → ℝ))) (f : ℕ → Option (List (Functional ℝ (Fin 3 → ℝ)))),
      NumberedSimplex s → (List.range 4).mapM f = some ((List.range 4).map F) →
      ∀ e (τ : Fin 3 → ℕ), HasEntity s.topo 2 e (List.ofFn τ) → f e = some (F e) := by
    intro s F f hnum h e τ he
    have hlt : e < 4 := ((hnum.1 2 (by omega)).2 e).1 ⟨_, he⟩
    exact mapM_map_mem f F _ h e (List.mem_range.2 hlt)
  have hnE : ∀ s : SimplexCell (Fin 3 → ℝ), NumberedSimplex s → numEnts s 2 = some 4 := fun s hnum => (hnum.1 2 (by omega)).1
  cases v with
  | point =>
    refine ⟨fun q => (refLattice 2 (k + 2)).flatMap fun y => [eval y (q 0), eval y (q 1)], ?_⟩
    intro s F hs hnum h e τ he w
    simp only [faceBlocks, hnE s hnum, Option.bind_some] at h
    have hb := key s F _ hnum h e τ he
    obtain ⟨τ', t1, t2, t3, t4⟩ := entity_tuple hs he
    obtain rfl := ofFn_inj' t3
    unfold facePointNodes at hb
    rw [make_points_ref hs (by omega) (by omega) τ t4, Option.bind_some, faceTangents_ref τ t4, Option.map_some, Option.some.injEq] at hb
    rw [← hb, List.map_flatMap, List.flatMap_map]
    refine List.flatMap_congr fun y _ => ?_
    simp only [List.map_cons, List.map_nil]
    rw [point_direction_field, point_direction_field]
    have h0 := eval_face (s := s) τ w 0 y
    have h1 := eval_face (s := s) τ w 1 y
    rw [← h0, ← h1]
    rfl
  | integral q =>
    have hq := hv q rfl
    obtain ⟨G, g1, g2, g3, g4, g5⟩ := ufc_cell_spec (d := 2) (by omega)
    obtain ⟨Q, q1, q2, q3, q4⟩ := simplex_rule_spec hgj (D := 2) (by omega) (ufcVerts ℝ 2) g5 q (by omega)
    obtain ⟨S, T, s1, s2, φ, s3, s4⟩ := vector_values (by omega) G g2 g3 (k - 1) 3 Q.pts
    rw [← g4] at q1
    let m := (onVectorRows ((k - 1 + 2).choose 2) 3).length
    refine ⟨fun p => ((List.finRange m).take (2 * m / 3)).map fun i => (⟨Q.pts, Q.wts⟩ : QRule ℝ (Fin 2 → ℝ)).integrate fun y =>
      T i 0 (Q.pts.idxOf y) * eval y (p 0) + T i 1 (Q.pts.idxOf y) * eval y (p 1), ?_⟩
    intro s F hs hnum h e τ he w
    simp only [faceBlocks, g1, q1, s1, s2, hnE s hnum, Option.bind_eq_bind, Option.bind_some] at h
    have hb := key s F _ hnum h e τ he
    obtain ⟨τ', t1, t2, t3, t4⟩ := entity_tuple hs he
    obtain rfl := ofFn_inj' t3
    unfold faceMonkNodes at hb
    rw [mapToEntity_ref τ t4, Option.bind_some, faceTangents_ref τ t4, Option.map_some, Option.some.injEq] at hb
    rw [← hb, List.map_map]
    refine List.map_congr_left fun i _ => ?_
    simp only [Function.comp]
    have := monk_field w Q.pts Q.wts q3 (entMap fun j => s.v (τ j)) (q4.map (entMap_injective hs τ t1 t2))
      (fun j l' => T i 0 j * vecNat (s.v (τ 1) - s.v (τ 0)) l' + T i 1 j * vecNat (s.v (τ 2) - s.v (τ 0)) l')
      (fun y l' => T i 0 (Q.pts.idxOf y) * (s.v (τ 1) - s.v (τ 0)) l' + T i 1 (Q.pts.idxOf y) * (s.v (τ 2) - s.v (τ 0)) l') (by
        intro j x hx l'
        have hv : ∀ u : Fin 3 → ℝ, vecNat u l' = u l' := fun u => by rw [vecNat, dif_pos l'.2]
        obtain ⟨hj, rfl⟩ := List.getElem?_eq_some_iff.1 hx
        rw [hv, hv, q4.idxOf_getElem])
    refine this.2.trans ?_
    congr 1
    funext y
    have h0 := eval_face (s := s) τ w 0 y
    have h1 := eval_face (s := s) τ w 1 y
    rw [← h0, ← h1, Finset.mul_sum, Finset.mul_sum, ← Finset.sum_add_distrib]
    exact Finset.sum_congr rfl fun j _ => by
      simp only [Fin.succ_zero_eq_one, Fin.succ_one_eq_two]
      ring

/-- The dofs of the entities of dimension `1, ..., D - 1` of an H(curl) element are the forms `Φ d` of the tangential trace pulled
back to the reference entity. -/
def CurlNatural (s : SimplexCell (Fin D → ℝ)) (nodes : List (Functional ℝ (Fin D → ℝ))) (ids : EntityIds ℕ)
    (Φ : (d : ℕ) → (Fin d → MvPolynomial (Fin d) ℝ) → List ℝ) : Prop :=
  ∀ d e (τ : Fin (d + 1) → ℕ), 1 ≤ d → d < D → HasEntity s.topo d e (List.ofFn τ) → ∀ w,
    DofValues nodes ids (fun a => a.onField (fieldOf w)) d e (Φ d (tangPull (fun j => s.v (τ j)) w))

/-- The dofs of the Nedelec elements of the first kind are the same functions of the tangential trace on every cell. -/
theorem ned_natural (hD : D = 2 ∨ D = 3) {gj : ℕ → ℕ → List ℝ} (hgj : NodesOK gj) (k : ℕ) (v : DualVariant)
    (hv : ∀ q, v = .integral q → k + 1 ≤ q) :
    ∃ Φ, ∀ (s : SimplexCell (Fin D → ℝ)) nodes ids, ProperSimplex ℝ s → NumberedSimplex s →
      0 < orientation (fun i : Fin (D + 1) => s.v i) → nedDual gj k v D s = some (nodes, ids) → CurlNatural s nodes ids Φ := by
  obtain ⟨Φ1, h1⟩ := edge_natural (D := D) (by omega) hgj k v hv
  rcases hD with rfl | rfl
  · refine ⟨fun d => match d with | 1 => Φ1 | _ => fun _ => [], ?_⟩
    intro s nodes ids hs hnum ho hd d e τ hd1 hd2 he w
    obtain rfl : d = 1 := by omega
    obtain ⟨nodes', ids', blk, a1, a2, a3, -⟩ := ned_dual2_full s hs hnum ho hgj k v hv
    have : some (nodes, ids) = some (nodes', ids') := hd.symm.trans a1
    rw [Option.some.injEq, Prod.mk.injEq] at this
    obtain ⟨rfl, rfl⟩ := this
    have := h1 s _ hs hnum a3 e τ he w
    beta_reduce at this
    change DofValues _ _ _ _ _ (Φ1 _)
    rw [← this]
    obtain ⟨l, l1, l2⟩ := a2.layout.2.2 1 e (mem_curlEnts.2 ⟨le_rfl, by omega, ((hnum.1 1 (by omega)).2 e).1 ⟨_, he⟩⟩)
    exact dofValues_of_block l1 l2
  · obtain ⟨Φ2, h2⟩ : ∃ Φ2 : (Fin 2 → MvPolynomial (Fin 2) ℝ) → List ℝ, ∀ (s : SimplexCell (Fin 3 → ℝ)) (F : ℕ → List (Functional ℝ (Fin 3 → ℝ))),
        ProperSimplex ℝ s → NumberedSimplex s →
        (0 < k → faceBlocks gj s k v = some ((List.range 4).map F)) → (k = 0 → ∀ e, F e = []) →
        ∀ e (τ : Fin 3 → ℕ), HasEntity s.topo 2 e (List.ofFn τ) → ∀ w : Fin 3 → MvPolynomial (Fin 3) ℝ,
          (F e).map (fun a => a.onField (fieldOf w)) = Φ2 (tangPull (fun j => s.v (τ j)) w) := by
      by_cases hk : 0 < k
      · obtain ⟨Φ2, h2⟩ := face_natural hgj k hk v hv
        exact ⟨Φ2, fun s F hs hnum hf _ => h2 s F hs hnum (hf hk)⟩
      · exact ⟨fun _ => [], fun s F hs hnum _ hf e τ _ w => by rw [hf (by omega)]; rfl⟩
    refine ⟨fun d => match d with | 1 => Φ1 | 2 => Φ2 | _ => fun _ => [], ?_⟩
    intro s nodes ids hs hnum ho hd d e τ hd1 hd2 he w
    obtain ⟨nodes', ids', blk, a1, a2, a3, a4, a5, -⟩ := ned_dual3_full s hs hnum ho hgj k v hv
    have : some (nodes, ids) = some (nodes', ids') := hd.symm.trans a1
    rw [Option.some.injEq, Prod.mk.injEq] at this
    obtain ⟨rfl, rfl⟩ := this
    obtain ⟨l, l1, l2⟩ := a2.layout.2.2 d e (mem_curlEnts.2 ⟨hd1, by omega, ((hnum.1 d (by omega)).2 e).1 ⟨_, he⟩⟩)
    rcases (by omega : d = 1 ∨ d = 2) with rfl | rfl
    · have := h1 s _ hs hnum a3 e τ he w
      beta_reduce at this
      change DofValues _ _ _ _ _ (Φ1 _)
      rw [← this]
      exact dofValues_of_block l1 l2
    · have := h2 s (fun e => blk (2, e)) hs hnum a4 a5 e τ he w
      change DofValues _ _ _ _ _ (Φ2 _)
      rw [← this]
      exact dofValues_of_block l1 l2

end
end FIAT
