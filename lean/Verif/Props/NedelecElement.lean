/-
C23: the Nedelec element of the first kind, FIAT/nedelec.py.
-/
import Verif.Props.HCurlDofs
import Verif.Props.NedelecSpace

namespace FIAT
open MvPolynomial

section ids
variable {D : ℕ}

theorem curlEnts_nodup (m a : ℕ) : ((List.range' a m).flatMap (entsOf D)).Nodup := by
  rw [List.nodup_flatMap]
  refine ⟨fun d _ => entsOf_nodup D d, ?_⟩
  refine (List.nodup_range' (step := 1)).imp fun {d d'} h => ?_
  intro x hx hx'
  exact h ((mem_entsOf.1 hx).1.symm.trans (mem_entsOf.1 hx').1)

/-- The `entity_ids` of the H(curl) duals: blocks of `n d` dofs for the entities of dimension `1, ..., m`; entities of higher
dimension have no dofs. -/
theorem curl_ids {s : SimplexCell (Fin D → ℝ)} (hnum : NumberedSimplex s) {ids0 : EntityIds ℕ}
    (h0 : emptyLoop s (List.range (D + 1)) [] = some ids0) {N : Type} (blk : ℕ × ℕ → List N) (n : ℕ → ℕ)
    (hn : ∀ x ∈ curlEnts D, (blk x).length = n x.1) (m : ℕ) (hm : m ≤ D) (hz : ∀ d, m < d → d ≤ D → n d = 0) (ids : EntityIds ℕ)
    (h : ∀ d e, ids.at? d e = (blockLoop (fun x => n x.1) ((List.range' 1 m).flatMap (entsOf D)) (0, ids0)).2.at? d e) :
    EntityBlocks s.topo (curlEnts D) blk ((curlEnts D).flatMap blk) ids := by
  obtain ⟨ids0', a1, a2⟩ := emptyLoop_spec hnum (List.range (D + 1)) (fun d hd => by have := List.mem_range.1 hd; omega) []
  rw [h0, Option.some.injEq] at a1
  subst a1
  have hsplit : curlEnts D = (List.range' 1 m).flatMap (entsOf D) ++ (List.range' (1 + m) (D - m)).flatMap (entsOf D) := by
    unfold curlEnts
    rw [← List.flatMap_append, List.range'_append_1]
    congr 2
    omega
  have hsub : ∀ x ∈ (List.range' 1 m).flatMap (entsOf D), x ∈ curlEnts D := fun x hx => by
    rw [hsplit]; exact List.mem_append_left _ hx
  have hent : ∀ x ∈ curlEnts D, ∃ v, HasEntity s.topo x.1 x.2 v := by
    rintro ⟨d, e⟩ hx
    obtain ⟨b1, b2, b3⟩ := mem_curlEnts.1 hx
    exact ((hnum.1 d b2).2 e).2 b3
  have hb := entityBlocks_intro (topo := s.topo) (L := (List.range' 1 m).flatMap (entsOf D)) blk (fun x => n x.1)
    (curlEnts_nodup m 1) (fun x hx => hent x (hsub x hx)) (fun x hx => (hn x (hsub x hx)).symm) ids0 ids
    (by
      rintro d e - ⟨v, hv⟩
      have hd := hnum.2 d e v hv
      rw [a2, if_pos ⟨List.mem_range.2 (by omega), ((hnum.1 d hd).2 e).1 ⟨v, hv⟩⟩])
    (by
      intro d e hv
      rw [a2, if_neg]
      · rfl
      · rintro ⟨b1, b2⟩
        have := List.mem_range.1 b1
        exact hv (((hnum.1 d (by omega)).2 e).2 b2)) h
  have hempty : ∀ x ∈ (List.range' (1 + m) (D - m)).flatMap (entsOf D), blk x = [] := by
    rintro ⟨d, e⟩ hx
    have hx' : (d, e) ∈ curlEnts D := by rw [hsplit]; exact List.mem_append_right _ hx
    obtain ⟨d', b1, b2⟩ := List.mem_flatMap.1 hx
    rw [List.mem_range'_1] at b1
    obtain ⟨rfl, -⟩ := mem_entsOf.1 b2
    rw [← List.length_eq_zero_iff, hn _ hx']
    exact hz d (by omega) (mem_curlEnts.1 hx').2.1
  have hf : (curlEnts D).flatMap blk = ((List.range' 1 m).flatMap (entsOf D)).flatMap blk := by
    rw [hsplit, List.flatMap_append]
    have : ((List.range' (1 + m) (D - m)).flatMap (entsOf D)).flatMap blk = [] := List.flatMap_eq_nil_iff.2 hempty
    rw [this, List.append_nil]
  rw [hf, hsplit]
  exact hb.append (by rw [← hsplit]; exact curlEnts_nodup D 1) (fun x hx => hent x (by rw [hsplit]; exact List.mem_append_right _ hx)) hempty

end ids

section cell
variable {D : ℕ}

/-- The interior moments. -/
theorem ned_cell_block (hD : D = 2 ∨ D = 3) {s : SimplexCell (Fin D → ℝ)} (hs : ProperSimplex ℝ s)
    (ho : 0 < orientation fun i : Fin (D + 1) => s.v i) {gj : ℕ → ℕ → List ℝ} (hgj : NodesOK gj) (k : ℕ)
    (v : DualVariant) (hv : ∀ q, v = .integral q → k + 1 ≤ q) :
    ∃ I, (if D - 1 ≤ k then cellMoments gj s (k - (D - 1)) (interiorDeg k v) else some []) = some I ∧
      I.length = D * (k + 1).choose D ∧ (∀ l ∈ I, PlainNode l) ∧
      ∀ w, IsNed k w → (∀ e t, HasEntity s.topo (D - 1) e t → TangOn s t w) → (∀ l ∈ I, l.onField (fieldOf w) = 0) → w = 0 := by
  have hD' : D = 1 ∨ D = 2 ∨ D = 3 := Or.inr hD
  have hinc : Increasing fun i : Fin (D + 1) => s.v i := fun h => by omega
  obtain ⟨g, b, hb⟩ := baryForms_exist _ (proper_independent hs)
  by_cases hk : D - 1 ≤ k
  · rw [if_pos hk]
    have hq : k + 1 ≤ interiorDeg k v := by
      cases v with
      | point => simp only [interiorDeg]; omega
      | integral q => exact hv q rfl
    obtain ⟨Q, q1, q2, q3, q4⟩ := simplex_rule_spec hgj hD' _ ho (interiorDeg k v) (by omega)
    obtain ⟨S, T, s1, s2, φ, s3, s4⟩ := scalar_values hD' s hs hinc (k - (D - 1)) Q.pts
    rw [← verts_ofFn s hs.2.1 hs.1] at q1
    obtain ⟨h1, h2, h3⟩ := component_moments_spec _ Q q2 q3 q4 φ T s3 s4
    refine ⟨_, ?_, ?_, h2, fun w hw ht hI => ?_⟩
    · unfold cellMoments
      rw [q1, Option.bind_some, s1, Option.bind_some, s2, Option.map_some]
    · rw [h1, show k - (D - 1) + D = k + 1 by omega]
    · have hdeg := (ned_dotX hw).1
      have h4 := (h3 w fun j => by have := hdeg j; omega).1 hI
      exact ned1_moments_core (by omega) hb (proper_independent hs) hw (tangZero_cell (by omega) hs ht hb)
        fun p hp j => h4 p (by omega) j
  · rw [if_neg hk]
    refine ⟨[], rfl, ?_, by simp, fun w hw ht _ => ?_⟩
    · rw [Nat.choose_eq_zero_of_lt (by omega)]; rfl
    · exact ned1_moments_core (by omega) hb (proper_independent hs) hw (tangZero_cell (by omega) hs ht hb)
        fun p hp j => by omega

/-- Faces without nodes. -/
theorem face_empty_block {s : SimplexCell (Fin 3 → ℝ)} (hs : ProperSimplex ℝ s) (e : ℕ) : TangBlock s (IsNed 0) 0 2 e [] := by
  refine ⟨rfl, by simp, fun t h w hw hlow => ?_⟩
  obtain ⟨τ, t1, t2, rfl, t4⟩ := entity_tuple hs h
  rw [tangOn_iff τ t1]
  obtain ⟨g, b, hb⟩ := baryForms_exist (ufcVerts ℝ 2) (ufcVerts_affineIndependent 2)
  simp only [List.not_mem_nil, false_imp_iff, implies_true, true_iff]
  exact ned1_moments_core le_rfl hb (ufcVerts_affineIndependent 2) (tangPull_ned _ hw) (tangZero_pull le_rfl hs τ t1 t2 hlow hb)
    fun p hp j => by omega

end cell

section dual

theorem edge_points_length {D : ℕ} (hD : 2 ≤ D) {s : SimplexCell (Fin D → ℝ)} (hs : ProperSimplex ℝ s) (hnum : NumberedSimplex s)
    (k : ℕ) : ∃ pts, makePoints ℝ s 1 0 (k + 2) = some pts ∧ pts.length = k + 1 := by
  obtain ⟨t, h⟩ := ((hnum.1 1 (by omega)).2 0).2 (Nat.choose_pos (by omega))
  obtain ⟨τ, t1, t2, rfl, t4⟩ := entity_tuple hs h
  refine ⟨_, make_points_ref hs le_rfl (by omega) τ t4 _, ?_⟩
  rw [List.length_map, (refLattice_spec le_rfl k).1]; simp

theorem face_points_length {s : SimplexCell (Fin 3 → ℝ)} (hs : ProperSimplex ℝ s) (hnum : NumberedSimplex s)
    (k : ℕ) (hk : 1 ≤ k) : ∃ pts, makePoints ℝ s 2 0 (k + 2) = some pts ∧ pts.length = (k + 1).choose 2 := by
  obtain ⟨t, h⟩ := ((hnum.1 2 (by omega)).2 0).2 (Nat.choose_pos (by omega))
  obtain ⟨τ, t1, t2, rfl, t4⟩ := entity_tuple hs h
  refine ⟨_, make_points_ref hs (by omega) (by omega) τ t4 _, ?_⟩
  have := (refLattice_spec (d := 2) (by omega) (k - 1)).1
  rw [show k - 1 + 2 + 1 = k + 2 by omega, show k - 1 + 2 = k + 1 by omega] at this
  rw [List.length_map, this]

/-- The dofs per entity: `d C(degree + 1, d)` on entities of dimension `d`. -/
def nedCount (k d : ℕ) : ℕ := d * (k + 1).choose d

/-- Nodes, dofs and separation of the dual on a triangle. -/
theorem ned_dual2_full (s : SimplexCell (Fin 2 → ℝ)) (hs : ProperSimplex ℝ s) (hnum : NumberedSimplex s)
    (ho : 0 < orientation fun i : Fin (2 + 1) => s.v i) {gj : ℕ → ℕ → List ℝ} (hgj : NodesOK gj) (k : ℕ) (v : DualVariant)
    (hv : ∀ q, v = .integral q → k + 1 ≤ q) :
    ∃ nodes ids blk, nedDual2 gj s k v = some (nodes, ids) ∧ EntityBlocks s.topo (curlEnts 2) blk nodes ids ∧
      edgeBlocks gj s k v = some ((List.range 3).map fun e => blk (1, e)) ∧ HCurlDofs s (IsNed k) (nedCount k) nodes ids ∧ (∀ l ∈ nodes, PlainNode l) ∧
      nodes.length = ((List.range' 1 2).map fun d => (2 + 1).choose (d + 1) * nedCount k d).sum ∧
      ∀ w, IsNed k w → (∀ l ∈ nodes, l.onField (fieldOf w) = 0) → w = 0 := by
  obtain ⟨F, f1, f2⟩ := edge_blocks_spec le_rfl hs hnum hgj (IsNed k) k ned_edge_trace v hv
  obtain ⟨I, i1, i2, i3, i4⟩ := ned_cell_block (Or.inl rfl) hs ho hgj k v hv
  obtain ⟨pts, p1, p2⟩ := edge_points_length le_rfl hs hnum k
  obtain ⟨ids0, a1, -⟩ := emptyLoop_spec hnum (List.range 3) (fun d hd => by have := List.mem_range.1 hd; omega) []
  let blk : ℕ × ℕ → List (Functional ℝ (Fin 2 → ℝ)) := fun x => if x.1 = 2 then I else F x.2
  have hlist : curlEnts 2 = entsOf 2 1 ++ entsOf 2 2 := rfl
  have hnodes : (curlEnts 2).flatMap blk = ((List.range 3).map F).flatten ++ I := by
    have := flatMap_blocks (D := 2) le_rfl F I
    rw [hlist]; exact this
  have hblk : ∀ d e, 1 ≤ d → d < 2 → e < (2 + 1).choose (d + 1) → TangBlock s (IsNed k) (nedCount k d) d e (blk (d, e)) := by
    intro d e h1 h2 h3
    obtain rfl : d = 1 := by omega
    have := f2 e h3
    rw [nedCount, Nat.choose_one_right, one_mul]
    exact this
  have hlen : ∀ x ∈ curlEnts 2, (blk x).length = nedCount k x.1 := by
    rintro ⟨d, e⟩ hx
    obtain ⟨b1, b2, b3⟩ := mem_curlEnts.1 hx
    rcases Nat.lt_or_eq_of_le b2 with h | rfl
    · exact (hblk d e b1 h b3).1
    · exact i2
  have hsame := sameLoop_spec hnum 1 pts.length (by omega) (0, ids0)
  have hcong : blockLoop (fun x => nedCount k x.1) (entsOf 2 1) (0, ids0) = blockLoop (fun _ => pts.length) (entsOf 2 1) (0, ids0) := by
    refine blockLoop_congr _ _ _ (fun x hx => ?_) _
    rw [(mem_entsOf.1 hx).1, p2, nedCount, Nat.choose_one_right, one_mul]
  obtain ⟨ids, d1, d2⟩ : ∃ ids, nedDual2 gj s k v = some (((List.range 3).map F).flatten ++ I, ids) ∧
      EntityBlocks s.topo (curlEnts 2) blk ((curlEnts 2).flatMap blk) ids := by
    by_cases hk : 0 < k
    · rw [if_pos (by omega)] at i1
      refine ⟨setIds (blockLoop (fun _ => pts.length) (entsOf 2 1) (0, ids0)).2 2 0
        (List.range' (blockLoop (fun _ => pts.length) (entsOf 2 1) (0, ids0)).1 (2 * (k + 1).choose 2)), ?_,
        curl_ids hnum a1 blk (nedCount k) hlen 2 le_rfl (fun d h1 h2 => by omega) _ fun d e => ?_⟩
      · unfold nedDual2
        have hp := polyDim_nat (D := 2) (by omega) (k - 1)
        rw [show ((k - 1 : ℕ) : ℤ) = (k : ℤ) - 1 by omega, show k - 1 + 2 = k + 1 by omega] at hp
        rw [f1]
        simp only [if_pos hk, i1, a1, p1, hsame, hp, Option.bind_eq_bind, Option.bind_some, Option.map_some]
        rfl
      · rw [show (List.range' 1 2).flatMap (entsOf 2) = entsOf 2 1 ++ entsOf 2 2 from rfl, blockLoop_append, hcong, entsOf_top]
        rfl
    · obtain rfl : k = 0 := by omega
      rw [if_neg (by omega)] at i1
      refine ⟨(blockLoop (fun _ => pts.length) (entsOf 2 1) (0, ids0)).2, ?_,
        curl_ids hnum a1 blk (nedCount 0) hlen 1 (by omega) (fun d h1 h2 => ?_) _ fun d e => ?_⟩
      · unfold nedDual2
        rw [f1]
        simp only [Option.some.injEq] at i1
        subst i1
        simp only [lt_irrefl, if_false, a1, p1, hsame, Option.bind_eq_bind, Option.bind_some]
        rfl
      · obtain rfl : d = 2 := by omega
        rfl
      · rw [show (List.range' 1 1).flatMap (entsOf 2) = entsOf 2 1 from rfl, hcong]
  rw [hnodes] at d2
  have hall := hcurl_dofs le_rfl hs hnum (IsNed k) (nedCount k) blk hblk i2 i3 i4 d2
  exact ⟨_, ids, blk, d1, d2, f1, hall.1, hall.2.1, hall.2.2.1, hall.2.2.2⟩

/-- Dofs and separation of the dual on a triangle. -/
theorem ned_dual2_spec (s : SimplexCell (Fin 2 → ℝ)) (hs : ProperSimplex ℝ s) (hnum : NumberedSimplex s)
    (ho : 0 < orientation fun i : Fin (2 + 1) => s.v i) {gj : ℕ → ℕ → List ℝ} (hgj : NodesOK gj) (k : ℕ) (v : DualVariant)
    (hv : ∀ q, v = .integral q → k + 1 ≤ q) :
    ∃ nodes ids, nedDual2 gj s k v = some (nodes, ids) ∧ HCurlDofs s (IsNed k) (nedCount k) nodes ids ∧ (∀ l ∈ nodes, PlainNode l) ∧
      nodes.length = ((List.range' 1 2).map fun d => (2 + 1).choose (d + 1) * nedCount k d).sum ∧
      ∀ w, IsNed k w → (∀ l ∈ nodes, l.onField (fieldOf w) = 0) → w = 0 := by
  obtain ⟨nodes, ids, blk, h1, -, -, h2⟩ := ned_dual2_full s hs hnum ho hgj k v hv
  exact ⟨nodes, ids, h1, h2⟩

/-- Nodes, dofs and separation of the dual on a tetrahedron. -/
theorem ned_dual3_full (s : SimplexCell (Fin 3 → ℝ)) (hs : ProperSimplex ℝ s) (hnum : NumberedSimplex s)
    (ho : 0 < orientation fun i : Fin (3 + 1) => s.v i) {gj : ℕ → ℕ → List ℝ} (hgj : NodesOK gj) (k : ℕ) (v : DualVariant)
    (hv : ∀ q, v = .integral q → k + 1 ≤ q) :
    ∃ nodes ids blk, nedDual3 gj s k v = some (nodes, ids) ∧ EntityBlocks s.topo (curlEnts 3) blk nodes ids ∧
      edgeBlocks gj s k v = some ((List.range 6).map fun e => blk (1, e)) ∧
      (0 < k → faceBlocks gj s k v = some ((List.range 4).map fun e => blk (2, e))) ∧ (k = 0 → ∀ e, blk (2, e) = []) ∧ HCurlDofs s (IsNed k) (nedCount k) nodes ids ∧ (∀ l ∈ nodes, PlainNode l) ∧
      nodes.length = ((List.range' 1 3).map fun d => (3 + 1).choose (d + 1) * nedCount k d).sum ∧
      ∀ w, IsNed k w → (∀ l ∈ nodes, l.onField (fieldOf w) = 0) → w = 0 := by
  obtain ⟨F, f1, f2⟩ := edge_blocks_spec (by omega) hs hnum hgj (IsNed k) k ned_edge_trace v hv
  obtain ⟨G, g1, g2⟩ : ∃ G, (if 0 < k then faceBlocks gj s k v else some []) = some (if 0 < k then (List.range 4).map G else []) ∧
      (k = 0 → ∀ e, G e = []) ∧ ∀ e < 4, TangBlock s (IsNed k) (2 * (k + 1).choose 2) 2 e (G e) := by
    by_cases hk : 0 < k
    · obtain ⟨G, g1, g2⟩ := face_blocks_spec hs hnum hgj k hk v hv
      exact ⟨G, by rw [if_pos hk, if_pos hk, g1], fun h => by omega, g2⟩
    · obtain rfl : k = 0 := by omega
      exact ⟨fun _ => [], rfl, fun _ _ => rfl, fun e _ => face_empty_block hs e⟩
  obtain ⟨g2, g3⟩ := g2
  obtain ⟨I, i1, i2, i3, i4⟩ := ned_cell_block (Or.inr rfl) hs ho hgj k v hv
  obtain ⟨pts, p1, p2⟩ := edge_points_length (by omega) hs hnum k
  obtain ⟨ids0, a1, -⟩ := emptyLoop_spec hnum (List.range 4) (fun d hd => by have := List.mem_range.1 hd; omega) []
  let blk : ℕ × ℕ → List (Functional ℝ (Fin 3 → ℝ)) := fun x => if x.1 = 3 then I else if x.1 = 2 then G x.2 else F x.2
  have hlist : curlEnts 3 = entsOf 3 1 ++ (entsOf 3 2 ++ entsOf 3 3) := rfl
  have hnodes : (curlEnts 3).flatMap blk =
      ((List.range 6).map F).flatten ++ (if 0 < k then (List.range 4).map G else []).flatten ++ I := by
    have e2 : (entsOf 3 2).flatMap blk = (if 0 < k then (List.range 4).map G else []).flatten := by
      have : (entsOf 3 2).flatMap blk = ((List.range 4).map G).flatten := by simp [entsOf, blk, List.flatMap_def, Function.comp_def]
      rw [this]
      by_cases hk : 0 < k
      · rw [if_pos hk]
      · rw [if_neg hk]
        have hG : ∀ e, G e = [] := g2 (by omega)
        simp [hG]
    have e1 : (entsOf 3 1).flatMap blk = ((List.range 6).map F).flatten := by simp [entsOf, blk, List.flatMap_def, Function.comp_def]; rfl
    have e3 : (entsOf 3 3).flatMap blk = I := by rw [entsOf_top]; simp [blk]
    rw [hlist, List.flatMap_append, List.flatMap_append, e1, e2, e3, List.append_assoc]
  have hblk : ∀ d e, 1 ≤ d → d < 3 → e < (3 + 1).choose (d + 1) → TangBlock s (IsNed k) (nedCount k d) d e (blk (d, e)) := by
    intro d e h1 h2 h3
    rcases (by omega : d = 1 ∨ d = 2) with rfl | rfl
    · have := f2 e h3
      rw [nedCount, Nat.choose_one_right, one_mul]
      exact this
    · exact g3 e h3
  have hlen : ∀ x ∈ curlEnts 3, (blk x).length = nedCount k x.1 := by
    rintro ⟨d, e⟩ hx
    obtain ⟨b1, b2, b3⟩ := mem_curlEnts.1 hx
    rcases Nat.lt_or_eq_of_le b2 with h | rfl
    · exact (hblk d e b1 h b3).1
    · exact i2
  have hsame := sameLoop_spec hnum 1 pts.length (by omega) (0, ids0)
  have hcong : blockLoop (fun x => nedCount k x.1) (entsOf 3 1) (0, ids0) = blockLoop (fun _ => pts.length) (entsOf 3 1) (0, ids0) := by
    refine blockLoop_congr _ _ _ (fun x hx => ?_) _
    rw [(mem_entsOf.1 hx).1, p2, nedCount, Nat.choose_one_right, one_mul]
  obtain ⟨ids, d1, d2⟩ : ∃ ids, nedDual3 gj s k v =
        some (((List.range 6).map F).flatten ++ (if 0 < k then (List.range 4).map G else []).flatten ++ I, ids) ∧
      EntityBlocks s.topo (curlEnts 3) blk ((curlEnts 3).flatMap blk) ids := by
    by_cases hk : 0 < k
    · obtain ⟨fpts, fp1, fp2⟩ := face_points_length hs hnum k hk
      have hsame2 := sameLoop_spec hnum 2 (2 * fpts.length) (by omega) (blockLoop (fun _ => pts.length) (entsOf 3 1) (0, ids0))
      have hcong2 : ∀ st, blockLoop (fun x => nedCount k x.1) (entsOf 3 2) st = blockLoop (fun _ => 2 * fpts.length) (entsOf 3 2) st := by
        intro st
        refine blockLoop_congr _ _ _ (fun x hx => ?_) _
        rw [(mem_entsOf.1 hx).1, fp2, nedCount]
      by_cases hk1 : 1 < k
      · rw [if_pos (by omega)] at i1
        refine ⟨setIds (blockLoop (fun _ => 2 * fpts.length) (entsOf 3 2) (blockLoop (fun _ => pts.length) (entsOf 3 1) (0, ids0))).2 3 0
          (List.range' (blockLoop (fun _ => 2 * fpts.length) (entsOf 3 2) (blockLoop (fun _ => pts.length) (entsOf 3 1) (0, ids0))).1
            ((k + 1).choose 3 * 3)), ?_,
          curl_ids hnum a1 blk (nedCount k) hlen 3 le_rfl (fun d h1 h2 => by omega) _ fun d e => ?_⟩
        · unfold nedDual3
          have hp := polyDim_nat (D := 3) (by omega) (k - 2)
          rw [show ((k - 2 : ℕ) : ℤ) = (k : ℤ) - 2 by omega, show k - 2 + 3 = k + 1 by omega] at hp
          rw [if_pos hk, if_pos hk] at g1
          rw [f1]
          simp only [if_pos hk, if_pos hk1, g1, i1, a1, p1, fp1, hsame, hsame2, hp, Option.bind_eq_bind, Option.bind_some, Option.map_some]
          rfl
        · rw [show (List.range' 1 3).flatMap (entsOf 3) = entsOf 3 1 ++ (entsOf 3 2 ++ entsOf 3 3) from rfl, blockLoop_append,
            blockLoop_append, hcong, hcong2, entsOf_top]
          rw [show blockLoop (fun x => nedCount k x.1) [(3, 0)]
              (blockLoop (fun _ => 2 * fpts.length) (entsOf 3 2) (blockLoop (fun _ => pts.length) (entsOf 3 1) (0, ids0))) =
              blockStep (nedCount k 3) (blockLoop (fun _ => 2 * fpts.length) (entsOf 3 2)
                (blockLoop (fun _ => pts.length) (entsOf 3 1) (0, ids0))) (3, 0) from rfl]
          rw [nedCount, mul_comm 3]
          rfl
      · obtain rfl : k = 1 := by omega
        rw [if_neg (by omega)] at i1
        simp only [Option.some.injEq] at i1
        subst i1
        refine ⟨(blockLoop (fun _ => 2 * fpts.length) (entsOf 3 2) (blockLoop (fun _ => pts.length) (entsOf 3 1) (0, ids0))).2, ?_,
          curl_ids hnum a1 blk (nedCount 1) hlen 2 (by omega) (fun d h1 h2 => ?_) _ fun d e => ?_⟩
        · unfold nedDual3
          rw [if_pos hk, if_pos hk] at g1
          rw [f1]
          simp only [if_pos hk, lt_irrefl, if_false, g1, a1, p1, fp1, hsame, hsame2, Option.bind_eq_bind, Option.bind_some]
          rfl
        · obtain rfl : d = 3 := by omega
          rfl
        · rw [show (List.range' 1 2).flatMap (entsOf 3) = entsOf 3 1 ++ entsOf 3 2 from rfl, blockLoop_append, hcong, hcong2]
    · obtain rfl : k = 0 := by omega
      rw [if_neg (by omega)] at i1
      refine ⟨(blockLoop (fun _ => pts.length) (entsOf 3 1) (0, ids0)).2, ?_,
        curl_ids hnum a1 blk (nedCount 0) hlen 1 (by omega) (fun d h1 h2 => ?_) _ fun d e => ?_⟩
      · unfold nedDual3
        rw [f1]
        simp only [Option.some.injEq] at i1
        subst i1
        simp only [lt_irrefl, Nat.not_lt_zero, if_false, a1, p1, hsame, Option.bind_eq_bind, Option.bind_some]
        rfl
      · rcases (by omega : d = 2 ∨ d = 3) with rfl | rfl <;> rfl
      · rw [show (List.range' 1 1).flatMap (entsOf 3) = entsOf 3 1 from rfl, hcong]
  rw [hnodes] at d2
  have hall := hcurl_dofs (by omega) hs hnum (IsNed k) (nedCount k) blk hblk i2 i3 i4 d2
  exact ⟨_, ids, blk, d1, d2, f1, fun hk => by rw [if_pos hk, if_pos hk] at g1; exact g1, g2, hall.1, hall.2.1, hall.2.2.1, hall.2.2.2⟩

/-- Dofs and separation of the dual on a tetrahedron. -/
theorem ned_dual3_spec (s : SimplexCell (Fin 3 → ℝ)) (hs : ProperSimplex ℝ s) (hnum : NumberedSimplex s)
    (ho : 0 < orientation fun i : Fin (3 + 1) => s.v i) {gj : ℕ → ℕ → List ℝ} (hgj : NodesOK gj) (k : ℕ) (v : DualVariant)
    (hv : ∀ q, v = .integral q → k + 1 ≤ q) :
    ∃ nodes ids, nedDual3 gj s k v = some (nodes, ids) ∧ HCurlDofs s (IsNed k) (nedCount k) nodes ids ∧ (∀ l ∈ nodes, PlainNode l) ∧
      nodes.length = ((List.range' 1 3).map fun d => (3 + 1).choose (d + 1) * nedCount k d).sum ∧
      ∀ w, IsNed k w → (∀ l ∈ nodes, l.onField (fieldOf w) = 0) → w = 0 := by
  obtain ⟨nodes, ids, blk, h1, -, -, -, -, h2⟩ := ned_dual3_full s hs hnum ho hgj k v hv
  exact ⟨nodes, ids, h1, h2⟩

/-- The number of nodes is the dimension of the space. -/
theorem nedDim_count {D : ℕ} (hD : D = 2 ∨ D = 3) (k : ℕ) :
    ((List.range' 1 D).map fun d => (D + 1).choose (d + 1) * nedCount k d).sum = nedDim D k := by
  have c1 : (2 + 1).choose (1 + 1) = 3 := rfl
  have c2 : (2 + 1).choose (1 + 1 + 1) = 1 := rfl
  have c3 : (3 + 1).choose (1 + 1) = 6 := rfl
  have c4 : (3 + 1).choose (1 + 1 + 1) = 4 := rfl
  have c5 : (3 + 1).choose (1 + 1 + 1 + 1) = 1 := rfl
  rcases hD with rfl | rfl
  · simp only [List.range', List.map_cons, List.map_nil, List.sum_cons, List.sum_nil, nedCount, nedDim, if_true,
      Nat.choose_one_right, c1, c2]
    simp only [Nat.reduceAdd]
    cases k with
    | zero => rfl
    | succ k =>
      have h1 := choose_two' k
      rw [show k + 1 + 1 = k + 2 from rfl]
      nlinarith
  · simp only [List.range', List.map_cons, List.map_nil, List.sum_cons, List.sum_nil, nedCount, nedDim,
      Nat.choose_one_right, c3, c4, c5]
    simp only [Nat.reduceAdd]
    rw [if_neg (by omega)]
    match k with
    | 0 => rfl
    | 1 => rfl
    | k + 2 =>
      have h1 := choose_two' (k + 1)
      have h2 := choose_three' k
      rw [show k + 1 + 2 = k + 3 from rfl, show k + 1 + 1 = k + 2 from rfl] at h1
      rw [show k + 2 + 1 = k + 3 from rfl]
      refine (Nat.div_eq_of_eq_mul_left two_pos ?_).symm
      nlinarith

end dual

section element
variable {D : ℕ}

theorem dual_variant_degree {T : DigitTable} {variant : Option (List Char)} {degree : ℕ} {v : DualVariant}
    (hv : dualVariant T variant degree = some v) : ∀ q, v = .integral q → degree + 1 ≤ q := by
  rintro q rfl
  unfold dualVariant checkFormatVariant at hv
  simp only at hv
  split at hv <;> rename_i h <;> simp at hv
  subst hv
  revert h
  split <;> intro h
  · split_ifs at h <;> simp_all
  · split_ifs at h

/-- Dofs and separation of the dual. -/
theorem ned_dual_spec (hD : D = 2 ∨ D = 3) (s : SimplexCell (Fin D → ℝ)) (hs : ProperSimplex ℝ s) (hnum : NumberedSimplex s)
    (ho : 0 < orientation fun i : Fin (D + 1) => s.v i) {gj : ℕ → ℕ → List ℝ} (hgj : NodesOK gj) (k : ℕ) (v : DualVariant)
    (hv : ∀ q, v = .integral q → k + 1 ≤ q) :
    ∃ nodes ids, nedDual gj k v D s = some (nodes, ids) ∧ HCurlDofs s (IsNed k) (nedCount k) nodes ids ∧
      (∀ l ∈ nodes, PlainNode l) ∧ nodes.length = nedDim D k ∧
      ∀ w, IsNed k w → (∀ l ∈ nodes, l.onField (fieldOf w) = 0) → w = 0 := by
  rw [← nedDim_count hD]
  rcases hD with rfl | rfl
  · exact ned_dual2_spec s hs hnum ho hgj k v hv
  · exact ned_dual3_spec s hs hnum ho hgj k v hv

/-- C23: `Nedelec(cell, degree + 1, variant)` on a triangle or tetrahedron, for every degree and every variant string
`check_format_variant` accepts.  The element has `(k+1)(k+3)` (triangle) or `(k+1)(k+3)(k+4)/2` (tetrahedron) dofs, `k = degree`;
`entity_dofs` is a partition of `range(#dofs)`; the functions it tabulates are the basis of the Nedelec space dual to its nodes;
the dofs of an edge or face and its edges determine the tangential component there. -/
theorem nedelec_spec (hD : D = 2 ∨ D = 3) (s : SimplexCell (Fin D → ℝ)) (hs : ProperSimplex ℝ s) (hnum : NumberedSimplex s)
    (ho : 0 < orientation fun i : Fin (D + 1) => s.v i) {gj : ℕ → ℕ → List ℝ} (hgj : NodesOK gj) (degree : ℕ)
    (svd : SvdFun) (hsvd : ∀ A B, nedRows gj degree D s = some (A, B) → SvdOK (svd D _) (A ++ B))
    (T : DigitTable) (variant : Option (List Char)) (v : DualVariant) (hv : dualVariant T variant degree = some v) :
    ∃ m el nodes ids, nedelec gj degree svd T s variant = some (⟨m, el⟩, nodes, ids) ∧
      m = nedDim D degree ∧ nodes.length = m ∧ HCurlDofs s (IsNed degree) (nedCount degree) nodes ids ∧
      el.sd = D ∧ IsNodalElement (IsNed degree) nodes el := by
  obtain ⟨m, S, s1, s2, s3, φ, s4, s5, s6, s7, s8, s9⟩ := ned_space_spec hD s hs ho hgj degree (svd D _) hsvd
  obtain ⟨nodes, ids, d1, d2, d3, d4, d5⟩ := ned_dual_spec hD s hs hnum ho hgj degree v (dual_variant_degree hv)
  have hm : 1 ≤ m := by
    rw [s3, nedDim]
    rcases hD with rfl | rfl
    · simp only [if_true]; nlinarith
    · rw [if_neg (by omega), Nat.le_div_iff_mul_le two_pos]
      have : 0 ≤ degree := by omega
      nlinarith [Nat.zero_le (degree * degree), Nat.zero_le (degree * degree * degree)]
  obtain ⟨el, e1, e0, -, -, -, -, e2⟩ := vector_element_nodal (by omega) φ S s2 s6 s7 (IsNed degree) s8 s9 nodes (d4.trans s3.symm) hm
    d3 d5
  refine ⟨m, el, nodes, ids, ?_, s3, d4.trans s3.symm, d2, e0, e2⟩
  unfold nedelec
  simp only [hv, s1, d1, e1, Option.bind_eq_bind, Option.bind_some]

end element
end FIAT
