/-
C74: the nodes of the integral variants of the H(curl) elements vanish on a field only if its edge, face and cell moments do.
-/
import Verif.Lemmas.CommuteDiv
import Verif.Lemmas.CommuteCurl

open MeasureTheory
namespace FIAT
open MvPolynomial
section
variable {D : ℕ}

theorem mapM_mem {α β : Type} (f : α → Option β) : ∀ (l : List α) (L : List β), l.mapM f = some L → ∀ a ∈ l, ∃ b ∈ L, f a = some b := by
  intro l
  induction l with
  | nil => simp
  | cons b l ih =>
    intro L h e he
    rw [List.mapM_cons] at h
    obtain ⟨c, h1, h⟩ := Option.bind_eq_some_iff.1 h
    obtain ⟨bs, h2, h⟩ := Option.bind_eq_some_iff.1 h
    obtain rfl := Option.some.inj h
    rcases List.mem_cons.1 he with rfl | he
    · exact ⟨c, List.mem_cons_self .., h1⟩
    · obtain ⟨blk, x, y⟩ := ih bs h2 e he
      exact ⟨blk, List.mem_cons_of_mem _ x, y⟩

/-- The edge nodes. -/
theorem edge_blocks_moments (hD : 2 ≤ D) {s : SimplexCell (Fin D → ℝ)} (hs : ProperSimplex ℝ s) (hnum : NumberedSimplex s)
    {gj : ℕ → ℕ → List ℝ} (hgj : NodesOK gj) {k q n : ℕ} (hq : k + 1 ≤ q) {L} (hL : edgeBlocks gj s k (.integral q) = some L)
    {w : Fin D → MvPolynomial (Fin D) ℝ} (hw : ∀ j, (w j).totalDegree ≤ n) (hnk : n + k ≤ 2 * q - 1) (hz : ∀ l ∈ L.flatten, l.onField (fieldOf w) = 0) :
    EdgeMomentsZero s k w := by
  intro e τ he p hp
  obtain ⟨G, g1, g2, g3, g4, g5⟩ := ufc_cell_spec (d := 1) (by omega)
  obtain ⟨Q, q1, q2, q3, q4⟩ := simplex_rule_spec hgj (D := 1) (by omega) (ufcVerts ℝ 1) g5 q (by omega)
  obtain ⟨S, T, s1, s2, φ, s3, s4⟩ := scalar_values (by omega) G g2 g3 k Q.pts
  rw [← g4] at q1
  have hnE : numEnts s 1 = some ((D + 1).choose 2) := (hnum.1 1 (by omega)).1
  simp only [edgeBlocks, g1, q1, s1, s2, hnE, Option.bind_eq_bind, Option.bind_some] at hL
  have hlt : e < (D + 1).choose 2 := ((hnum.1 1 (by omega)).2 e).1 ⟨_, he⟩
  obtain ⟨blk, b1, hb⟩ := mapM_mem _ _ _ hL e (List.mem_range.2 hlt)
  obtain ⟨τ', t1, t2, t3, t4⟩ := entity_tuple hs he
  obtain rfl := ofFn_inj' t3
  unfold edgeMomentNodes at hb
  rw [mapToEntity_ref τ t4, Option.bind_some, edgeTangent_ref τ t4, Option.map_some, Option.some.injEq] at hb
  refine quad_moments Q q2 q3 φ T s3 s4 (q := tangPull (fun r => s.v (τ r)) w 0)
    ((Nat.add_le_add_right (tangPull_degree _ hw 0) k).trans hnk) (fun i => ?_) p hp
  have h0 := hz _ (List.mem_flatten.2 ⟨blk, b1, by rw [← hb]; exact List.mem_map.2 ⟨i, List.mem_finRange i, rfl⟩⟩)
  rw [moment_direction_field _ _ _ (by
    rw [zipRule_points _ _ (by rw [List.length_map, q3])]
    exact q4.map (entMap_injective hs τ t1 t2)), quadSum_zip_map] at h0
  simp only [eval_edge] at h0
  exact h0

/-- The interior nodes. -/
theorem cell_moments_zero (hD : D = 2 ∨ D = 3) {s : SimplexCell (Fin D → ℝ)} (hs : ProperSimplex ℝ s)
    (ho : 0 < orientation fun i : Fin (D + 1) => s.v i) {gj : ℕ → ℕ → List ℝ} (hgj : NodesOK gj) {k q : ℕ} (hq : 1 ≤ q)
    {I} (hI : cellMoments gj s k q = some I)
    {w : Fin D → MvPolynomial (Fin D) ℝ} (hw : ∀ j, (w j).totalDegree + k ≤ 2 * q - 1) (hz : ∀ l ∈ I, l.onField (fieldOf w) = 0)
    (p : MvPolynomial (Fin D) ℝ) (hp : p.totalDegree ≤ k) (j : Fin D) :
    ∫ x in convexHull ℝ (Set.range fun i : Fin (D + 1) => s.v i), eval x (w j * p) = 0 := by
  have hinc : Increasing fun i : Fin (D + 1) => s.v i := fun h => by omega
  have hD' : D = 1 ∨ D = 2 ∨ D = 3 := Or.inr hD
  obtain ⟨Q, q1, q2, q3, q4⟩ := simplex_rule_spec hgj hD' _ ho q (by omega)
  obtain ⟨S, T, s1, s2, φ, s3, s4⟩ := scalar_values hD' s hs hinc k Q.pts
  rw [← verts_ofFn s hs.2.1 hs.1] at q1
  unfold cellMoments at hI
  simp only [q1, s1, s2, Option.bind_some, Option.map_some, Option.some.injEq] at hI
  subst hI
  exact ((component_moments_spec _ Q q2 q3 q4 φ T s3 s4).2.2 w hw).1 hz p hp j

open Classical in
/-- The face nodes. -/
theorem face_blocks_moments {s : SimplexCell (Fin 3 → ℝ)} (hs : ProperSimplex ℝ s) (hnum : NumberedSimplex s)
    {gj : ℕ → ℕ → List ℝ} (hgj : NodesOK gj) {k q n : ℕ} (hk : 0 < k) (hq : k + 1 ≤ q) {L} (hL : faceBlocks gj s k (.integral q) = some L)
    {w : Fin 3 → MvPolynomial (Fin 3) ℝ} (hw : ∀ j, (w j).totalDegree ≤ n) (hnk : n + k ≤ 2 * q - 1) (hz : ∀ l ∈ L.flatten, l.onField (fieldOf w) = 0) :
    FaceMomentsZero s k w := by
  intro e τ he p hp a
  obtain ⟨G, g1, g2, g3, g4, g5⟩ := ufc_cell_spec (d := 2) (by omega)
  obtain ⟨Q, q1, q2, q3, q4⟩ := simplex_rule_spec hgj (D := 2) (by omega) (ufcVerts ℝ 2) g5 q (by omega)
  obtain ⟨S, T, s1, s2, φ, s3, s4⟩ := vector_values (by omega) G g2 g3 (k - 1) 3 Q.pts
  rw [← g4] at q1
  have hnE : numEnts s 2 = some 4 := (hnum.1 2 (by omega)).1
  simp only [faceBlocks, g1, q1, s1, s2, hnE, Option.bind_eq_bind, Option.bind_some] at hL
  have hlt : e < 4 := ((hnum.1 2 (by omega)).2 e).1 ⟨_, he⟩
  obtain ⟨blk, b1, hb⟩ := mapM_mem _ _ _ hL e (List.mem_range.2 hlt)
  obtain ⟨τ', t1, t2, t3, t4⟩ := entity_tuple hs he
  obtain rfl := ofFn_inj' t3
  unfold faceMonkNodes at hb
  rw [mapToEntity_ref τ t4, Option.bind_some, faceTangents_ref τ t4, Option.map_some, Option.some.injEq] at hb
  have hm : (onVectorRows ((k - 1 + 2).choose 2) 3).length = 3 * (k - 1 + 2).choose 2 := onVectorRows_length _ _
  rw [mul_comm]
  refine quad_moments (k := k - 1) Q q2 q3 φ (fun l _ j => T ⟨a * (k - 1 + 2).choose 2 + l, by
    rw [hm]; have := a.2; have := l.2; nlinarith⟩ a.castSucc j) s3 (fun l j x hx => ?_) (q := tangPull (fun r => s.v (τ r)) w a)
    ((Nat.add_le_add_right (tangPull_degree _ hw a) (k - 1)).trans (by omega)) (fun l => ?_) p (by omega)
  · rw [s4 _ a.castSucc l rfl _ j x hx, if_pos rfl]
  · have hi : (a : ℕ) * (k - 1 + 2).choose 2 + l < (onVectorRows ((k - 1 + 2).choose 2) 3).length := by
      rw [hm]; have := a.2; have := l.2; nlinarith
    have h0 := hz _ (List.mem_flatten.2 ⟨blk, b1, by
      rw [← hb]
      refine List.mem_map.2 ⟨⟨_, hi⟩, List.mem_iff_getElem.2 ⟨(a : ℕ) * (k - 1 + 2).choose 2 + l, ?_, ?_⟩, rfl⟩
      · rw [List.length_take, List.length_finRange, hm]
        have h1 : 2 * (3 * (k - 1 + 2).choose 2) / 3 = 2 * (k - 1 + 2).choose 2 := by omega
        rw [h1]
        have := a.2
        have := l.2
        refine lt_min (by nlinarith) (by nlinarith)
      · rw [List.getElem_take, List.getElem_finRange]; rfl⟩)
    have hval := fun (j : ℕ) x (hx : Q.pts[j]? = some x) (c : Fin 3) => s4 ⟨_, hi⟩ a.castSucc l rfl c j x hx
    have := monk_field w Q.pts Q.wts q3 (entMap fun j => s.v (τ j)) (q4.map (entMap_injective hs τ t1 t2))
      (fun j l' => T ⟨_, hi⟩ 0 j * vecNat (s.v (τ 1) - s.v (τ 0)) l' + T ⟨_, hi⟩ 1 j * vecNat (s.v (τ 2) - s.v (τ 0)) l')
      (fun y l' => eval y (φ l) * (s.v (τ a.succ) - s.v (τ 0)) l') (by
        intro j x hx l'
        have hv : ∀ u : Fin 3 → ℝ, vecNat u l' = u l' := fun u => by rw [vecNat, dif_pos l'.2]
        rw [hval j x hx 0, hval j x hx 1, hv, hv]
        fin_cases a
        · simp
        · simp)
    rw [quadSum_zip Q.pts Q.wts q3 _ (fun x => eval x (φ l)) _ (fun j x hx => by rw [hval j x hx, if_pos rfl]), ← h0]
    refine Eq.trans ?_ this.2.symm
    congr 1
    funext y
    rw [← eval_face, Finset.mul_sum]
    exact Finset.sum_congr rfl fun j _ => by ring

/-- The nodes of the integral variant of the triangle element. -/
theorem ned2_node_moments {s : SimplexCell (Fin 2 → ℝ)} (hs : ProperSimplex ℝ s) (hnum : NumberedSimplex s)
    (ho : 0 < orientation fun i : Fin (2 + 1) => s.v i) {gj : ℕ → ℕ → List ℝ} (hgj : NodesOK gj) {k q : ℕ} (hq : k + 1 ≤ q) {nodes ids}
    (hnodes : nedDual2 gj s k (.integral q) = some (nodes, ids)) {w : Fin 2 → MvPolynomial (Fin 2) ℝ}
    (hw : ∀ j, (w j).totalDegree + k ≤ 2 * q - 1) (hz : ∀ l ∈ nodes, l.onField (fieldOf w) = 0) :
    EdgeMomentsZero s k w ∧ CellMomentsZero s k w := by
  have hw' : ∀ j, (w j).totalDegree ≤ 2 * q - 1 - k := fun j => by have := hw j; omega
  unfold nedDual2 at hnodes
  simp only [Option.bind_eq_bind, Option.bind_eq_some_iff] at hnodes
  obtain ⟨L, hL, I, hI, _, -, _, -, _, -, _, -, h⟩ := hnodes
  obtain ⟨rfl, -⟩ := Prod.mk.inj (Option.some.inj h)
  refine ⟨edge_blocks_moments le_rfl hs hnum hgj hq hL hw' (by omega) fun l hl => hz l (List.mem_append_left _ hl), fun p hp j => ?_⟩
  rw [if_pos (by omega)] at hI
  exact cell_moments_zero (Or.inl rfl) hs ho hgj (k := k - 1) (q := q) (by omega) hI (fun j => by have := hw j; omega)
    (fun l hl => hz l (List.mem_append_right _ hl)) p (by omega) j

/-- The nodes of the integral variant of the tetrahedron element. -/
theorem ned3_node_moments {s : SimplexCell (Fin 3 → ℝ)} (hs : ProperSimplex ℝ s) (hnum : NumberedSimplex s)
    (ho : 0 < orientation fun i : Fin (3 + 1) => s.v i) {gj : ℕ → ℕ → List ℝ} (hgj : NodesOK gj) {k q : ℕ} (hq : k + 1 ≤ q) {nodes ids}
    (hnodes : nedDual3 gj s k (.integral q) = some (nodes, ids)) {w : Fin 3 → MvPolynomial (Fin 3) ℝ}
    (hw : ∀ j, (w j).totalDegree + k ≤ 2 * q - 1) (hz : ∀ l ∈ nodes, l.onField (fieldOf w) = 0) :
    EdgeMomentsZero s k w ∧ FaceMomentsZero s k w ∧ CellMomentsZero s (k - 1) w := by
  have hw' : ∀ j, (w j).totalDegree ≤ 2 * q - 1 - k := fun j => by have := hw j; omega
  unfold nedDual3 at hnodes
  simp only [Option.bind_eq_bind, Option.bind_eq_some_iff] at hnodes
  obtain ⟨L, hL, M, hM, I, hI, _, -, _, -, _, -, _, -, _, -, h⟩ := hnodes
  obtain ⟨rfl, -⟩ := Prod.mk.inj (Option.some.inj h)
  refine ⟨edge_blocks_moments (by omega) hs hnum hgj hq hL hw' (by omega) fun l hl => hz l (List.mem_append_left _ (List.mem_append_left _ hl)), ?_, fun p hp j => ?_⟩
  · by_cases hk : 0 < k
    · rw [if_pos hk] at hM
      exact face_blocks_moments hs hnum hgj hk hq hM hw' (by omega) fun l hl => hz l (List.mem_append_left _ (List.mem_append_right _ hl))
    · intro e τ he p hp
      omega
  · rw [if_pos (by omega)] at hI
    exact cell_moments_zero (Or.inr rfl) hs ho hgj (k := k - 2) (q := q) (by omega) hI (fun j => by have := hw j; omega)
      (fun l hl => hz l (List.mem_append_right _ hl)) p (by omega) j

end
end FIAT
