/-
C23: the Nedelec element of the second kind, FIAT/nedelec_second_kind.py.
-/
import Verif.Lemmas.SecondFaces

namespace FIAT
open MvPolynomial

section ids

/-- The dictionary of `_generate_edge_dofs` and `_generate_face_dofs` when all entities have `n` nodes. -/
theorem multIds_eq {N : Type} (dim off n : ℕ) (F : ℕ → List N) (M : ℕ) (h : ∀ e < M, (F e).length = n) (ids : EntityIds ℕ) :
    blockLoop (fun _ => n) ((List.range M).map fun i => (dim, i)) (off, ids) = (off + n * M, multIds dim off ((List.range M).map F) ids) := by
  induction M with
  | zero => rfl
  | succ M ih =>
    have ih := ih fun e he => h e (by omega)
    rw [List.range_succ, List.map_append, blockLoop_append, ih]
    have e : multIds dim off (List.map F (List.range M ++ [M])) ids =
        setIds (multIds dim off ((List.range M).map F) ids) dim M (List.range' (off + (F M).length * M) (F M).length) := by
      unfold multIds
      rw [List.map_append, List.zipIdx_append, List.foldl_append]
      simp
    rw [e, h M (by omega)]
    change blockStep n _ (dim, M) = _
    unfold blockStep
    rw [Prod.mk.injEq]
    exact ⟨by ring, rfl⟩

end ids

section dual

theorem full_edge_trace {D k : ℕ} (w : Fin D → MvPolynomial (Fin D) ℝ) (hw : FullDeg k w) (vc : Fin 2 → Fin D → ℝ) :
    (tangPull vc w 0).totalDegree ≤ k := tangPull_degree vc hw 0

theorem n2Count_one {k : ℕ} (hk : 1 ≤ k) : n2Count k 1 = k + 1 := by
  rw [n2Count, if_pos hk, Nat.choose_one_right, Nat.sub_self, Nat.choose_zero_right, one_mul]

/-- Nodes, dofs and separation of the dual on a triangle. -/
theorem n2_dual2_full (s : SimplexCell (Fin 2 → ℝ)) (hs : ProperSimplex ℝ s) (hnum : NumberedSimplex s)
    (ho : 0 < orientation fun i : Fin (2 + 1) => s.v i) {gj : ℕ → ℕ → List ℝ} (hgj : NodesOK gj)
    {nrm : ℕ → Option (Fin 2 → ℝ)} (hn : FacetNormals s nrm) (k : ℕ) (hk : 1 ≤ k) (svd : SvdFun)
    (hsvd : 2 ≤ k → ∀ A B, rtRows gj (k - 2) s = some (A, B) → SvdOK (svd 2 _) (A ++ B)) (T : DigitTable) (v : DualVariant)
    (hv : ∀ q, v = .integral q → k + 1 ≤ q) :
    ∃ nodes ids blk, n2Dual2 gj svd T s nrm k v = some (nodes, ids) ∧ EntityBlocks s.topo (curlEnts 2) blk nodes ids ∧
      edgeBlocks gj s k v = some ((List.range 3).map fun e => blk (1, e)) ∧ HCurlDofs s (FullDeg k) (n2Count k) nodes ids ∧
      (∀ l ∈ nodes, PlainNode l) ∧ nodes.length = ((List.range' 1 2).map fun d => (2 + 1).choose (d + 1) * n2Count k d).sum ∧
      ∀ w, FullDeg k w → (∀ l ∈ nodes, l.onField (fieldOf w) = 0) → w = 0 := by
  obtain ⟨F, f1, f2⟩ := edge_blocks_spec le_rfl hs hnum hgj (FullDeg k) k full_edge_trace v hv
  obtain ⟨I, i1, i2, i3, i4⟩ := n2_cell_spec (Or.inl rfl) hs hnum ho hgj hn k svd hsvd T v
  let blk : ℕ × ℕ → List (Functional ℝ (Fin 2 → ℝ)) := fun x => if x.1 = 2 then I else F x.2
  have hnodes : (curlEnts 2).flatMap blk = ((List.range 3).map F).flatten ++ I := flatMap_blocks (D := 2) le_rfl F I
  have hblk : ∀ d e, 1 ≤ d → d < 2 → e < (2 + 1).choose (d + 1) → TangBlock s (FullDeg k) (n2Count k d) d e (blk (d, e)) := by
    intro d e h1 h2 h3
    obtain rfl : d = 1 := by omega
    rw [n2Count_one hk]
    exact f2 e h3
  have hlen : ∀ x ∈ curlEnts 2, n2Count k x.1 = (blk x).length := by
    rintro ⟨d, e⟩ hx
    obtain ⟨b1, b2, b3⟩ := mem_curlEnts.1 hx
    rcases Nat.lt_or_eq_of_le b2 with h | rfl
    · exact (hblk d e b1 h b3).1.symm
    · exact i2.symm
  have hFlen : ∀ e < 3, (F e).length = n2Count k 1 := fun e he => (f2 e he).1.trans (n2Count_one hk).symm
  have hfl : ((List.range 3).map F).flatten.length = n2Count k 1 * 3 := by
    rw [List.length_flatten, List.map_map]
    rw [show (List.range 3).map (List.length ∘ F) = (List.range 3).map fun _ => n2Count k 1 from
      List.map_congr_left fun e he => hFlen e (List.mem_range.1 he)]
    simp
    ring
  have hm := fun ids => multIds_eq 1 0 (n2Count k 1) F 3 hFlen ids
  set ids0 : EntityIds ℕ := (List.range 3).foldl (fun (ids : EntityIds ℕ) (j : ℕ) => setIds ids 0 j []) [] with hids0
  have h0 : ∀ d e, ids0.at? d e = if d = 0 ∧ e < 3 then some [] else none := fun d e => by
    rw [hids0, inner_empty]; rfl
  have d2 : EntityBlocks s.topo (curlEnts 2) blk ((curlEnts 2).flatMap blk)
      (setIds (multIds 1 0 ((List.range 3).map F) ids0) 2 0 (List.range' ((List.range 3).map F).flatten.length I.length)) := by
    refine entityBlocks_intro blk (fun x => n2Count k x.1) (curlEnts_nodup 2 1) ?_ hlen ids0 _ ?_ ?_ ?_
    · rintro ⟨d, e⟩ hx
      obtain ⟨b1, b2, b3⟩ := mem_curlEnts.1 hx
      exact ((hnum.1 d b2).2 e).2 b3
    · rintro d e hne ⟨t, ht⟩
      have hd := hnum.2 d e t ht
      have he := ((hnum.1 d hd).2 e).1 ⟨t, ht⟩
      have : d = 0 := by
        by_contra hd0
        exact hne (mem_curlEnts.2 ⟨by omega, hd, he⟩)
      subst this
      rw [h0, if_pos ⟨rfl, he⟩]
    · intro d e hne
      rw [h0, if_neg]
      rintro ⟨rfl, he⟩
      exact hne (((hnum.1 0 (by omega)).2 e).2 he)
    · intro d e
      rw [show (List.range' 1 2).flatMap (entsOf 2) = entsOf 2 1 ++ entsOf 2 2 from rfl, blockLoop_append, entsOf_top]
      rw [blockLoop_congr (fun x => n2Count k x.1) (fun _ => n2Count k 1) (entsOf 2 1) (fun x hx => by rw [(mem_entsOf.1 hx).1])]
      rw [show entsOf 2 1 = (List.range 3).map fun i => (1, i) from rfl, hm, hfl, i2]
      change _ = (blockStep (n2Count k 2) _ (2, 0)).2.at? d e
      rw [blockStep, zero_add]
  rw [hnodes] at d2
  have hall := hcurl_dofs le_rfl hs hnum (FullDeg k) (n2Count k) blk hblk i2 i3 i4 d2
  refine ⟨_, _, blk, ?_, d2, f1, hall.1, hall.2.1, hall.2.2.1, hall.2.2.2⟩
  unfold n2Dual2
  rw [f1]
  simp only [i1, Option.bind_eq_bind, Option.bind_some]
  rfl

/-- Dofs and separation of the dual on a triangle. -/
theorem n2_dual2_spec (s : SimplexCell (Fin 2 → ℝ)) (hs : ProperSimplex ℝ s) (hnum : NumberedSimplex s)
    (ho : 0 < orientation fun i : Fin (2 + 1) => s.v i) {gj : ℕ → ℕ → List ℝ} (hgj : NodesOK gj)
    {nrm : ℕ → Option (Fin 2 → ℝ)} (hn : FacetNormals s nrm) (k : ℕ) (hk : 1 ≤ k) (svd : SvdFun)
    (hsvd : 2 ≤ k → ∀ A B, rtRows gj (k - 2) s = some (A, B) → SvdOK (svd 2 _) (A ++ B)) (T : DigitTable) (v : DualVariant)
    (hv : ∀ q, v = .integral q → k + 1 ≤ q) :
    ∃ nodes ids, n2Dual2 gj svd T s nrm k v = some (nodes, ids) ∧ HCurlDofs s (FullDeg k) (n2Count k) nodes ids ∧
      (∀ l ∈ nodes, PlainNode l) ∧ nodes.length = ((List.range' 1 2).map fun d => (2 + 1).choose (d + 1) * n2Count k d).sum ∧
      ∀ w, FullDeg k w → (∀ l ∈ nodes, l.onField (fieldOf w) = 0) → w = 0 := by
  obtain ⟨nodes, ids, blk, h1, -, -, h2⟩ := n2_dual2_full s hs hnum ho hgj hn k hk svd hsvd T v hv
  exact ⟨nodes, ids, h1, h2⟩

/-- The face blocks; for `k ≥ 2` the cell is the UFC tetrahedron. -/
theorem n2_face_blocks_spec (s : SimplexCell (Fin 3 → ℝ)) (hs : ProperSimplex ℝ s) (hnum : NumberedSimplex s)
    {gj : ℕ → ℕ → List ℝ} (hgj : NodesOK gj) {nrm2 : ℕ → Option (Fin 2 → ℝ)}
    (hn2 : FacetNormals ((ufcTriangle : CellData ℝ).toSimplex 2) nrm2) (k : ℕ) (isUfc : Bool)
    (hufc : 2 ≤ k → isUfc = true ∧ s = (ufcTetrahedron : CellData ℝ).toSimplex 3) (svd : SvdFun)
    (hsvd2 : 2 ≤ k → ∀ A B, rtRows gj (k - 2) ((ufcTriangle : CellData ℝ).toSimplex 2) = some (A, B) → SvdOK (svd 2 _) (A ++ B))
    (T : DigitTable) (v : DualVariant) :
    ∃ G, n2FaceBlocks gj svd T s isUfc nrm2 k v = some (if 2 ≤ k then (List.range 4).map G else []) ∧
      (k < 2 → ∀ e, G e = []) ∧ ∀ e < 4, TangBlock s (FullDeg k) (n2Count k 2) 2 e (G e) := by
  unfold n2FaceBlocks
  by_cases hk : 2 ≤ k
  · obtain ⟨rfl, rfl⟩ := hufc hk
    have hnE := (hnum.1 2 (by omega)).1
    have hex : ∀ e < 4, ∃ t, HasEntity ((ufcTetrahedron : CellData ℝ).toSimplex 3).topo 2 e t := fun e he => ((hnum.1 2 (by omega)).2 e).2 he
    obtain ⟨G, h1, h2⟩ := mapM_choose 4 (fun i => n2FaceNodes gj svd T nrm2 k v i)
      (TangBlock ((ufcTetrahedron : CellData ℝ).toSimplex 3) (FullDeg k) (n2Count k 2) 2) (by
        intro e he
        obtain ⟨t, ht⟩ := hex e he
        exact n2_face_block hgj hn2 k hk svd (hsvd2 hk) T v ht) []
    refine ⟨G, ?_, fun h => by omega, fun e he => (h2 e he).2⟩
    rw [if_neg (by omega), if_pos rfl, if_pos hk, hnE, Option.bind_some]
    exact h1
  · refine ⟨fun _ => [], by rw [if_pos (by omega), if_neg hk], fun _ _ => rfl, fun e _ => ?_⟩
    rw [n2Count, if_neg hk]
    exact n2_face_empty hs (by omega) e

/-- Nodes, dofs and separation of the dual on a tetrahedron. -/
theorem n2_dual3_full (s : SimplexCell (Fin 3 → ℝ)) (hs : ProperSimplex ℝ s) (hnum : NumberedSimplex s)
    (ho : 0 < orientation fun i : Fin (3 + 1) => s.v i) {gj : ℕ → ℕ → List ℝ} (hgj : NodesOK gj)
    {nrm : ℕ → Option (Fin 3 → ℝ)} (hn : FacetNormals s nrm) {nrm2 : ℕ → Option (Fin 2 → ℝ)}
    (hn2 : FacetNormals ((ufcTriangle : CellData ℝ).toSimplex 2) nrm2) (k : ℕ) (hk : 1 ≤ k) (isUfc : Bool)
    (hufc : 2 ≤ k → isUfc = true ∧ s = (ufcTetrahedron : CellData ℝ).toSimplex 3) (svd : SvdFun)
    (hsvd2 : 2 ≤ k → ∀ A B, rtRows gj (k - 2) ((ufcTriangle : CellData ℝ).toSimplex 2) = some (A, B) → SvdOK (svd 2 _) (A ++ B))
    (hsvd : 3 ≤ k → ∀ A B, rtRows gj (k - 3) s = some (A, B) → SvdOK (svd 3 _) (A ++ B)) (T : DigitTable) (v : DualVariant)
    (hv : ∀ q, v = .integral q → k + 1 ≤ q) :
    ∃ nodes ids blk, n2Dual3 gj svd T s isUfc nrm nrm2 k v = some (nodes, ids) ∧ EntityBlocks s.topo (curlEnts 3) blk nodes ids ∧
      edgeBlocks gj s k v = some ((List.range 6).map fun e => blk (1, e)) ∧
      (2 ≤ k → n2FaceBlocks gj svd T s isUfc nrm2 k v = some ((List.range 4).map fun e => blk (2, e))) ∧ (k < 2 → ∀ e, blk (2, e) = []) ∧
      HCurlDofs s (FullDeg k) (n2Count k) nodes ids ∧
      (∀ l ∈ nodes, PlainNode l) ∧ nodes.length = ((List.range' 1 3).map fun d => (3 + 1).choose (d + 1) * n2Count k d).sum ∧
      ∀ w, FullDeg k w → (∀ l ∈ nodes, l.onField (fieldOf w) = 0) → w = 0 := by
  obtain ⟨F, f1, f2⟩ := edge_blocks_spec (by omega) hs hnum hgj (FullDeg k) k full_edge_trace v hv
  obtain ⟨G, g1, g2, g3⟩ := n2_face_blocks_spec s hs hnum hgj hn2 k isUfc hufc svd hsvd2 T v
  obtain ⟨I, i1, i2, i3, i4⟩ := n2_cell_spec (Or.inr rfl) hs hnum ho hgj hn k svd hsvd T v
  let blk : ℕ × ℕ → List (Functional ℝ (Fin 3 → ℝ)) := fun x => if x.1 = 3 then I else if x.1 = 2 then G x.2 else F x.2
  set faces := (if 2 ≤ k then (List.range 4).map G else []) with hfaces
  have hff : faces.flatten = ((List.range 4).map G).flatten := by
    rw [hfaces]
    by_cases h : 2 ≤ k
    · rw [if_pos h]
    · rw [if_neg h]
      have hG := g2 (by omega)
      simp [hG]
  have hnodes : (curlEnts 3).flatMap blk = ((List.range 6).map F).flatten ++ faces.flatten ++ I := by
    have e2 : (entsOf 3 2).flatMap blk = ((List.range 4).map G).flatten := by simp [entsOf, blk, List.flatMap_def, Function.comp_def]
    have e1 : (entsOf 3 1).flatMap blk = ((List.range 6).map F).flatten := by simp [entsOf, blk, List.flatMap_def, Function.comp_def]; rfl
    have e3 : (entsOf 3 3).flatMap blk = I := by rw [entsOf_top]; simp [blk]
    rw [show curlEnts 3 = entsOf 3 1 ++ (entsOf 3 2 ++ entsOf 3 3) from rfl, List.flatMap_append, List.flatMap_append, e1, e2, e3,
      List.append_assoc, hff]
  have hblk : ∀ d e, 1 ≤ d → d < 3 → e < (3 + 1).choose (d + 1) → TangBlock s (FullDeg k) (n2Count k d) d e (blk (d, e)) := by
    intro d e h1 h2 h3
    rcases (by omega : d = 1 ∨ d = 2) with rfl | rfl
    · rw [n2Count_one hk]
      exact f2 e h3
    · exact g3 e h3
  have hlen : ∀ x ∈ curlEnts 3, n2Count k x.1 = (blk x).length := by
    rintro ⟨d, e⟩ hx
    obtain ⟨b1, b2, b3⟩ := mem_curlEnts.1 hx
    rcases Nat.lt_or_eq_of_le b2 with h | rfl
    · exact (hblk d e b1 h b3).1.symm
    · exact i2.symm
  have hFlen : ∀ e < 6, (F e).length = n2Count k 1 := fun e he => (f2 e he).1.trans (n2Count_one hk).symm
  have hGlen : ∀ e < 4, (G e).length = n2Count k 2 := fun e he => (g3 e he).1
  have hsum : ∀ (M n : ℕ) (H : ℕ → List (Functional ℝ (Fin 3 → ℝ))), (∀ e < M, (H e).length = n) →
      ((List.range M).map H).flatten.length = n * M := by
    intro M n H h
    rw [List.length_flatten, List.map_map]
    rw [show (List.range M).map (List.length ∘ H) = (List.range M).map fun _ => n from
      List.map_congr_left fun e he => h e (List.mem_range.1 he)]
    simp [mul_comm]
  have hfl1 := hsum 6 _ F hFlen
  have hfl2 : faces.flatten.length = n2Count k 2 * 4 := by rw [hff]; exact hsum 4 _ G hGlen
  have hm1 := fun ids => multIds_eq 1 0 (n2Count k 1) F 6 hFlen ids
  have hm2 := fun ids => multIds_eq 2 ((List.range 6).map F).flatten.length (n2Count k 2) G 4 hGlen ids
  set ids0 : EntityIds ℕ := (List.range 4).foldl (fun (ids : EntityIds ℕ) (j : ℕ) => setIds ids 0 j []) [] with hids0
  have h0 : ∀ d e, ids0.at? d e = if d = 0 ∧ e < 4 then some [] else none := fun d e => by
    rw [hids0, inner_empty]; rfl
  set ids1 := multIds 1 0 ((List.range 6).map F) ids0 with hids1
  set ids2 : EntityIds ℕ := (List.range 4).foldl (fun (ids : EntityIds ℕ) (j : ℕ) => setIds ids 2 j []) ids1 with hids2
  have hat2 : ∀ d e, (multIds 2 ((List.range 6).map F).flatten.length faces ids2).at? d e =
      (blockLoop (fun _ => n2Count k 2) (entsOf 3 2) (((List.range 6).map F).flatten.length, ids1)).2.at? d e := by
    intro d e
    have hin : ids2.at? d e = if d = 2 ∧ e < 4 then some [] else ids1.at? d e := by rw [hids2, inner_empty]
    have hsp := fun ids => (blockLoop_spec (fun _ => n2Count k 2) (entsOf 3 2) (entsOf_nodup 3 2)
      (((List.range 6).map F).flatten.length, ids)).2 d e
    have hmem : (d, e) ∈ entsOf 3 2 ↔ d = 2 ∧ e < 4 := mem_entsOf
    rw [hsp ids1]
    by_cases h2k : 2 ≤ k
    · have : multIds 2 ((List.range 6).map F).flatten.length faces ids2 =
          (blockLoop (fun _ => n2Count k 2) (entsOf 3 2) (((List.range 6).map F).flatten.length, ids2)).2 := by
        rw [show entsOf 3 2 = (List.range 4).map fun i => (2, i) from rfl, hm2, hfaces, if_pos h2k]
      rw [this, hsp ids2]
      by_cases hc : (d, e) ∈ entsOf 3 2
      · rw [if_pos hc, if_pos hc]
      · rw [if_neg hc, if_neg hc]
        change ids2.at? d e = ids1.at? d e
        rw [hin, if_neg (fun h => hc (hmem.2 h))]
    · rw [hfaces, if_neg h2k]
      change ids2.at? d e = _
      rw [hin]
      by_cases hc : d = 2 ∧ e < 4
      · rw [if_pos hc, if_pos (hmem.2 hc), n2Count, if_neg h2k]; rfl
      · rw [if_neg hc, if_neg (fun h => hc (hmem.1 h))]
  have d2 : EntityBlocks s.topo (curlEnts 3) blk ((curlEnts 3).flatMap blk)
      (setIds (multIds 2 ((List.range 6).map F).flatten.length faces ids2) 3 0
        (List.range' (((List.range 6).map F).flatten ++ faces.flatten).length I.length)) := by
    refine entityBlocks_intro blk (fun x => n2Count k x.1) (curlEnts_nodup 3 1) ?_ hlen ids0 _ ?_ ?_ ?_
    · rintro ⟨d, e⟩ hx
      obtain ⟨b1, b2, b3⟩ := mem_curlEnts.1 hx
      exact ((hnum.1 d b2).2 e).2 b3
    · rintro d e hne ⟨t, ht⟩
      have hd := hnum.2 d e t ht
      have he := ((hnum.1 d hd).2 e).1 ⟨t, ht⟩
      have : d = 0 := by
        by_contra hd0
        exact hne (mem_curlEnts.2 ⟨by omega, hd, he⟩)
      subst this
      rw [h0, if_pos ⟨rfl, he⟩]
    · intro d e hne
      rw [h0, if_neg]
      rintro ⟨rfl, he⟩
      exact hne (((hnum.1 0 (by omega)).2 e).2 he)
    · intro d e
      rw [show (List.range' 1 3).flatMap (entsOf 3) = entsOf 3 1 ++ (entsOf 3 2 ++ entsOf 3 3) from rfl, blockLoop_append, blockLoop_append, entsOf_top]
      rw [blockLoop_congr (fun x => n2Count k x.1) (fun _ => n2Count k 1) (entsOf 3 1) (fun x hx => by rw [(mem_entsOf.1 hx).1])]
      rw [blockLoop_congr (fun x => n2Count k x.1) (fun _ => n2Count k 2) (entsOf 3 2) (fun x hx => by rw [(mem_entsOf.1 hx).1])]
      rw [show entsOf 3 1 = (List.range 6).map fun i => (1, i) from rfl, hm1, ← hids1, zero_add, ← hfl1]
      change _ = (blockStep (n2Count k 3) _ (3, 0)).2.at? d e
      rw [blockStep, setIds_at, setIds_at, hat2, i2]
      have hst : (blockLoop (fun _ => n2Count k 2) (entsOf 3 2) (((List.range 6).map F).flatten.length, ids1)).1 =
          (((List.range 6).map F).flatten ++ faces.flatten).length := by
        rw [show entsOf 3 2 = (List.range 4).map fun i => (2, i) from rfl, hm2, List.length_append, hfl2]
      rw [hst]
  rw [hnodes] at d2
  have hall := hcurl_dofs (by omega) hs hnum (FullDeg k) (n2Count k) blk hblk i2 i3 i4 d2
  refine ⟨_, _, blk, ?_, d2, f1, fun h => by rw [g1, hfaces, if_pos h]; rfl, g2, hall.1, hall.2.1, hall.2.2.1, hall.2.2.2⟩
  unfold n2Dual3
  rw [f1]
  simp only [g1, i1, Option.bind_eq_bind, Option.bind_some]
  rfl

/-- Dofs and separation of the dual on a tetrahedron. -/
theorem n2_dual3_spec (s : SimplexCell (Fin 3 → ℝ)) (hs : ProperSimplex ℝ s) (hnum : NumberedSimplex s)
    (ho : 0 < orientation fun i : Fin (3 + 1) => s.v i) {gj : ℕ → ℕ → List ℝ} (hgj : NodesOK gj)
    {nrm : ℕ → Option (Fin 3 → ℝ)} (hn : FacetNormals s nrm) {nrm2 : ℕ → Option (Fin 2 → ℝ)}
    (hn2 : FacetNormals ((ufcTriangle : CellData ℝ).toSimplex 2) nrm2) (k : ℕ) (hk : 1 ≤ k) (isUfc : Bool)
    (hufc : 2 ≤ k → isUfc = true ∧ s = (ufcTetrahedron : CellData ℝ).toSimplex 3) (svd : SvdFun)
    (hsvd2 : 2 ≤ k → ∀ A B, rtRows gj (k - 2) ((ufcTriangle : CellData ℝ).toSimplex 2) = some (A, B) → SvdOK (svd 2 _) (A ++ B))
    (hsvd : 3 ≤ k → ∀ A B, rtRows gj (k - 3) s = some (A, B) → SvdOK (svd 3 _) (A ++ B)) (T : DigitTable) (v : DualVariant)
    (hv : ∀ q, v = .integral q → k + 1 ≤ q) :
    ∃ nodes ids, n2Dual3 gj svd T s isUfc nrm nrm2 k v = some (nodes, ids) ∧ HCurlDofs s (FullDeg k) (n2Count k) nodes ids ∧
      (∀ l ∈ nodes, PlainNode l) ∧ nodes.length = ((List.range' 1 3).map fun d => (3 + 1).choose (d + 1) * n2Count k d).sum ∧
      ∀ w, FullDeg k w → (∀ l ∈ nodes, l.onField (fieldOf w) = 0) → w = 0 := by
  obtain ⟨nodes, ids, blk, h1, -, -, -, -, h2⟩ := n2_dual3_full s hs hnum ho hgj hn hn2 k hk isUfc hufc svd hsvd2 hsvd T v hv
  exact ⟨nodes, ids, h1, h2⟩

end dual

section element

/-- C23: `NedelecSecondKind(cell, k, variant)` on a triangle, for every `k ≥ 1` and every variant string `check_format_variant`
accepts.  The element has `2 dim P_k` dofs, `k + 1` on each edge and `dim RT_(k-1)` inside; `entity_dofs` is a partition of
`range(#dofs)`; the functions it tabulates are the basis of `P_k^2` dual to its nodes; the dofs of an edge determine the
tangential component there.  For `k ≥ 2` the interior nodes use a Raviart-Thomas element, whose construction calls the SVD. -/
theorem nedelec2_triangle_spec (s : SimplexCell (Fin 2 → ℝ)) (hs : ProperSimplex ℝ s) (hnum : NumberedSimplex s)
    (ho : 0 < orientation fun i : Fin (2 + 1) => s.v i) {gj : ℕ → ℕ → List ℝ} (hgj : NodesOK gj)
    {nrm : ℕ → Option (Fin 2 → ℝ)} (hn : FacetNormals s nrm) (nrm2 : ℕ → Option (Fin 2 → ℝ)) (isUfc : Bool) (k : ℕ) (hk : 1 ≤ k)
    (svd : SvdFun) (hsvd : 2 ≤ k → ∀ A B, rtRows gj (k - 2) s = some (A, B) → SvdOK (svd 2 _) (A ++ B))
    (T : DigitTable) (variant : Option (List Char)) (v : DualVariant) (hv : dualVariant T variant k = some v) :
    ∃ m el nodes ids, nedelec2 gj k svd T s isUfc nrm nrm2 variant = some (⟨m, el⟩, nodes, ids) ∧
      m = 2 * (k + 2).choose 2 ∧ nodes.length = m ∧ HCurlDofs s (FullDeg k) (n2Count k) nodes ids ∧
      el.sd = 2 ∧ IsNodalElement (FullDeg k) nodes el := by
  obtain ⟨m, S, s1, s2, s3, φ, s6, s7, s8, s9⟩ := vec_space_spec (Or.inl rfl) s hs ho k hk
  obtain ⟨nodes, ids, d1, d2, d3, d4, d5⟩ := n2_dual2_spec s hs hnum ho hgj hn k hk svd hsvd T v (dual_variant_degree hv)
  rw [n2_dim_count (Or.inl rfl) k hk] at d4
  have hm : 1 ≤ m := by
    rw [s3]
    exact Nat.mul_pos (by omega) (Nat.choose_pos (by omega))
  obtain ⟨el, e1, e0, -, -, -, -, e2⟩ := vector_element_nodal (by omega) φ S s2 s6 s7 (FullDeg k) s8 s9 nodes (d4.trans s3.symm) hm
    d3 d5
  refine ⟨m, el, nodes, ids, ?_, s3, d4.trans s3.symm, d2, e0, e2⟩
  unfold nedelec2
  simp only [hv, s1, e1, if_neg (by omega : ¬ k < 1), n2Dual, d1, Option.bind_eq_bind, Option.bind_some]

/-- C23: `NedelecSecondKind(cell, k, variant)` on a tetrahedron, for every `k ≥ 1` and every variant string; for `k ≥ 2` the
code asks for the UFC tetrahedron.  The element has `3 dim P_k` dofs, `k + 1` on each edge, `dim RT_(k-1)` on each face and
`dim RT_(k-2)` inside; `entity_dofs` is a partition of `range(#dofs)`; the functions it tabulates are the basis of `P_k^3` dual to
its nodes; the dofs of an edge or face and its edges determine the tangential component there. -/
theorem nedelec2_tetrahedron_spec (s : SimplexCell (Fin 3 → ℝ)) (hs : ProperSimplex ℝ s) (hnum : NumberedSimplex s)
    (ho : 0 < orientation fun i : Fin (3 + 1) => s.v i) {gj : ℕ → ℕ → List ℝ} (hgj : NodesOK gj)
    {nrm : ℕ → Option (Fin 3 → ℝ)} (hn : FacetNormals s nrm) {nrm2 : ℕ → Option (Fin 2 → ℝ)}
    (hn2 : FacetNormals ((ufcTriangle : CellData ℝ).toSimplex 2) nrm2) (k : ℕ) (hk : 1 ≤ k) (isUfc : Bool)
    (hufc : 2 ≤ k → isUfc = true ∧ s = (ufcTetrahedron : CellData ℝ).toSimplex 3) (svd : SvdFun)
    (hsvd2 : 2 ≤ k → ∀ A B, rtRows gj (k - 2) ((ufcTriangle : CellData ℝ).toSimplex 2) = some (A, B) → SvdOK (svd 2 _) (A ++ B))
    (hsvd : 3 ≤ k → ∀ A B, rtRows gj (k - 3) s = some (A, B) → SvdOK (svd 3 _) (A ++ B))
    (T : DigitTable) (variant : Option (List Char)) (v : DualVariant) (hv : dualVariant T variant k = some v) :
    ∃ m el nodes ids, nedelec2 gj k svd T s isUfc nrm nrm2 variant = some (⟨m, el⟩, nodes, ids) ∧
      m = 3 * (k + 3).choose 3 ∧ nodes.length = m ∧ HCurlDofs s (FullDeg k) (n2Count k) nodes ids ∧
      el.sd = 3 ∧ IsNodalElement (FullDeg k) nodes el := by
  obtain ⟨m, S, s1, s2, s3, φ, s6, s7, s8, s9⟩ := vec_space_spec (Or.inr rfl) s hs ho k hk
  obtain ⟨nodes, ids, d1, d2, d3, d4, d5⟩ := n2_dual3_spec s hs hnum ho hgj hn hn2 k hk isUfc hufc svd hsvd2 hsvd T v
    (dual_variant_degree hv)
  rw [n2_dim_count (Or.inr rfl) k hk] at d4
  have hm : 1 ≤ m := by
    rw [s3]
    exact Nat.mul_pos (by omega) (Nat.choose_pos (by omega))
  obtain ⟨el, e1, e0, -, -, -, -, e2⟩ := vector_element_nodal (by omega) φ S s2 s6 s7 (FullDeg k) s8 s9 nodes (d4.trans s3.symm) hm
    d3 d5
  refine ⟨m, el, nodes, ids, ?_, s3, d4.trans s3.symm, d2, e0, e2⟩
  unfold nedelec2
  simp only [hv, s1, e1, if_neg (by omega : ¬ k < 1), n2Dual, d1, Option.bind_eq_bind, Option.bind_some]

/-- On other tetrahedra than the UFC one the constructor fails for `k ≥ 2`. -/
theorem nedelec2_not_ufc (gj : ℕ → ℕ → List ℝ) (k : ℕ) (hk : 2 ≤ k) (svd : SvdFun) (T : DigitTable) (s : SimplexCell (Fin 3 → ℝ))
    (nrm : ℕ → Option (Fin 3 → ℝ)) (nrm2 : ℕ → Option (Fin 2 → ℝ)) (variant : Option (List Char)) :
    nedelec2 gj k svd T s false nrm nrm2 variant = none := by
  have h : ∀ v, n2Dual gj svd T false nrm2 k v 3 s nrm = none := by
    intro v
    have : n2FaceBlocks gj svd T s false nrm2 k v = none := by
      unfold n2FaceBlocks
      rw [if_neg (by omega), if_neg (by simp)]
    unfold n2Dual n2Dual3
    simp only [this, Option.bind_eq_bind, Option.bind_none]
    cases edgeBlocks gj s k v <;> rfl
  unfold nedelec2
  simp only [h, Option.bind_eq_bind, Option.bind_none]
  cases dualVariant T variant k with
  | none => rfl
  | some v => cases (if k < 1 then none else onVectorSet s k) <;> rfl

end element
end FIAT
