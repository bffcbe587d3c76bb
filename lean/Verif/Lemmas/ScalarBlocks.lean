/-
From blocks of nodes to the dofs of entities; loops over all the dimensions; barycentres.
-/
import Verif.Props.ScalarSpec

namespace FIAT
open MvPolynomial
section
variable {D : ℕ}

theorem EntityBlocks.dofsOf {s : SimplexCell (Fin D → ℝ)} {L : List (ℕ × ℕ)} {blk : ℕ × ℕ → List (Functional ℝ (Fin D → ℝ))}
    {nodes : List (Functional ℝ (Fin D → ℝ))} {ids : EntityIds ℕ} (h : EntityBlocks s.topo L blk nodes ids) {d e : ℕ} (hm : (d, e) ∈ L)
    (F : MvPolynomial (Fin D) ℝ → List ℝ) (hF : ∀ p, (blk (d, e)).map (fun node => node.onField (scalarField p)) = F p) :
    DofsOf nodes ids d e F := by
  obtain ⟨-, -, h3⟩ := h.layout
  obtain ⟨l, h1, h2⟩ := h3 d e hm
  refine ⟨l, h1, fun p => ?_⟩
  rw [← hF p]
  have := congrArg (List.map (Option.map fun node : Functional ℝ (Fin D → ℝ) => node.onField (scalarField p))) h2
  rw [List.map_map, List.map_map] at this
  rw [List.map_map]
  exact this

theorem EntityBlocks.zero_closure {s : SimplexCell (Fin D → ℝ)} {L : List (ℕ × ℕ)} {blk : ℕ × ℕ → List (Functional ℝ (Fin D → ℝ))}
    {nodes : List (Functional ℝ (Fin D → ℝ))} {ids : EntityIds ℕ} (h : EntityBlocks s.topo L blk nodes ids) {t : List ℕ}
    {p : MvPolynomial (Fin D) ℝ} (hz : ZeroOnClosure s nodes ids t p) {d e : ℕ} {t' : List ℕ} (he : HasEntity s.topo d e t')
    (hm : (d, e) ∈ L) (hsub : ∀ a ∈ t', a ∈ t) : ∀ node ∈ blk (d, e), node.onField (scalarField p) = 0 := by
  obtain ⟨-, -, h3⟩ := h.layout
  obtain ⟨l, h1, h2⟩ := h3 d e hm
  intro node hn
  have : some node ∈ l.map (fun i => nodes[i]?) := by rw [h2]; exact List.mem_map_of_mem hn
  obtain ⟨i, hi, hi'⟩ := List.mem_map.1 this
  exact hz d e t' he hsub l h1 i hi node hi'

/-- One more dimension. -/
theorem loop_dim {s : SimplexCell (Fin D → ℝ)} (hs : NumberedSimplex s) {N : Type} {d : ℕ} (hd : d ≤ D) {blk : ℕ × ℕ → List N}
    (f : ℕ → Option (List (ℕ × List N)))
    (hf : ∀ e < (D + 1).choose (d + 1), ∃ chunks, f e = some chunks ∧ (∀ c ∈ chunks, c.1 = c.2.length) ∧
      chunks.flatMap Prod.snd = blk (d, e))
    {st : ℕ × List N × EntityIds ℕ} (h : LoopInv blk ((List.range d).flatMap (entsOf D)) st) :
    ∃ st', entityLoop s d f st = some st' ∧ LoopInv blk ((List.range (d + 1)).flatMap (entsOf D)) st' := by
  obtain ⟨st', h1, h2⟩ := entityLoop_spec hs hd f hf (L := (List.range d).flatMap (entsOf D)) (by
    intro x hx
    obtain ⟨d', h1, h2⟩ := List.mem_flatMap.1 hx
    have := (mem_entsOf.1 h2).1
    have := List.mem_range.1 h1
    omega) (entsFlat_nodup d) h
  refine ⟨st', h1, ?_⟩
  rw [List.range_succ, List.flatMap_append]
  simpa using h2

/-- The remaining dimensions have no dofs. -/
theorem loop_rest {s : SimplexCell (Fin D → ℝ)} (hs : NumberedSimplex s) {N : Type} {blk : ℕ × ℕ → List N} (n d : ℕ) (hd : d + n ≤ D + 1)
    (hb : ∀ d' e, d ≤ d' → blk (d', e) = []) {st : ℕ × List N × EntityIds ℕ} (h : LoopInv blk ((List.range d).flatMap (entsOf D)) st) :
    ∃ st', (List.range' d n).foldlM (fun (st : ℕ × List N × EntityIds ℕ) (dim : ℕ) => entityLoop s dim (fun _ => some []) st) st = some st' ∧
      LoopInv blk ((List.range (d + n)).flatMap (entsOf D)) st' := by
  induction n generalizing d st with
  | zero => exact ⟨st, rfl, h⟩
  | succ n ih =>
    obtain ⟨st1, h1, h2⟩ := loop_dim hs (d := d) (by omega) (fun _ => some []) (fun e _ => ⟨[], rfl, by simp, by simp [hb d e le_rfl]⟩) h
    obtain ⟨st2, h3, h4⟩ := ih (d + 1) (by omega) (fun d' e h => hb d' e (by omega)) h2
    refine ⟨st2, ?_, ?_⟩
    · rw [List.range'_succ, List.foldlM_cons, h1]
      exact h3
    · rw [show d + (n + 1) = d + 1 + n by omega]; exact h4

/-- `make_points(d, e, d + 1)` is the barycentre of the entity. -/
theorem centroid_points {s : SimplexCell (Fin D → ℝ)} (hs : ProperSimplex ℝ s) {d e : ℕ} {t : List ℕ} (h : HasEntity s.topo d e t) :
    makePoints ℝ s d e (d + 1) = some [(1 / ((d : ℝ) + 1)) • (t.map s.v).sum] := by
  obtain ⟨h1, h2, h3⟩ := hs.2.1.entity _ _ _ h
  obtain ⟨pts, p1, p2⟩ := make_points_mem (K := ℝ) s hs.2.1 (d + 1) (by omega) h
  have hnd := make_points_nodup s hs.2.1 hs.2.2.1 (d + 1) (by omega) h p1
  have hsub : t.toFinset ⊆ Finset.range (s.sd + 1) := by
    intro i hi
    exact Finset.mem_range.2 (h3 i (List.mem_toFinset.1 hi))
  have hcard : t.toFinset.card = d + 1 := by rw [List.toFinset_card_of_nodup h1, h2]
  have key : ∀ β : ℕ → ℕ, (∀ i, β i ≠ 0 ↔ i ∈ t) → ∑ i ∈ Finset.range (s.sd + 1), β i = d + 1 →
      baryPt ℝ s.v (s.sd + 1) (d + 1) β = (1 / ((d : ℝ) + 1)) • (t.map s.v).sum := by
    intro β b1 b2
    have hz : ∀ i, i ∉ t.toFinset → β i = 0 := by
      intro i hi
      by_contra hc
      exact hi (List.mem_toFinset.2 ((b1 i).1 hc))
    rw [← Finset.sum_subset hsub fun i _ hi => hz i hi] at b2
    have hone : ∀ i ∈ t.toFinset, β i = 1 := by
      have hge : ∀ i ∈ t.toFinset, 1 ≤ β i := fun i hi => by
        have := (b1 i).2 (List.mem_toFinset.1 hi); omega
      have : ∑ i ∈ t.toFinset, 1 = ∑ i ∈ t.toFinset, β i := by rw [b2, Finset.sum_const, hcard]; simp
      intro i hi
      exact (((Finset.sum_eq_sum_iff_of_le hge).1 this) i hi).symm
    unfold baryPt
    rw [← Finset.sum_subset hsub fun i _ hi => by rw [hz i hi]; simp, ← List.sum_toFinset _ h1, Finset.smul_sum]
    refine Finset.sum_congr rfl fun i hi => ?_
    rw [hone i hi]; push_cast; rfl
  have hall : ∀ x ∈ pts, x = (1 / ((d : ℝ) + 1)) • (t.map s.v).sum := by
    intro x hx
    obtain ⟨β, b1, b2, rfl⟩ := (p2 x).1 hx
    exact key β b1 b2
  have hmem : (1 / ((d : ℝ) + 1)) • (t.map s.v).sum ∈ pts := by
    rw [p2]
    have b1 : ∀ i, (if i ∈ t then 1 else 0) ≠ 0 ↔ i ∈ t := by intro i; split_ifs <;> simp_all
    have b2 : ∑ i ∈ Finset.range (s.sd + 1), (if i ∈ t then 1 else 0) = d + 1 := by
      rw [← hcard, ← Finset.sum_subset hsub (f := fun i => if i ∈ t then 1 else 0)
        fun i _ hi => by rw [if_neg]; rwa [List.mem_toFinset] at hi, Finset.card_eq_sum_ones]
      exact Finset.sum_congr rfl fun i hi => by rw [if_pos (List.mem_toFinset.1 hi)]
    exact ⟨_, b1, b2, (key _ b1 b2).symm⟩
  rw [p1]
  congr 1
  match pts, hnd, hall, hmem with
  | [], _, _, hm => simp at hm
  | [x], _, ha, _ => rw [ha x (by simp)]
  | x :: y :: r, hn, ha, _ =>
    exfalso
    have := ha x (by simp)
    have := ha y (by simp)
    simp_all

theorem vertex_get {s : SimplexCell (Fin D → ℝ)} (hs : ProperSimplex ℝ s) {v : ℕ} (hv : v < D + 1) : s.verts[v]? = some (s.v v) := by
  have := hs.2.1.nverts
  rw [hs.1] at this
  unfold SimplexCell.v
  rw [List.getElem?_eq_getElem (by omega)]
  rfl

theorem vertex_entity {s : SimplexCell (Fin D → ℝ)} (hs : ProperSimplex ℝ s) (hnum : NumberedSimplex s) {v : ℕ} (hv : v < D + 1) :
    HasEntity s.topo 0 v [v] := by
  obtain ⟨t, ht⟩ := ((hnum.1 0 (by omega)).2 v).2 (by simpa using hv)
  have := hs.2.1.vertex _ _ ht
  rwa [this] at ht

/-- The cell itself: its affine hull is the whole space. -/
theorem cell_entity {s : SimplexCell (Fin D → ℝ)} (hs : ProperSimplex ℝ s) (hnum : NumberedSimplex s) :
    ∃ t, HasEntity s.topo D 0 t ∧ t.Nodup ∧ (∀ a, a ∈ t ↔ a < D + 1) ∧ ∀ x, OnEntity s t x := by
  obtain ⟨t, ht⟩ := ((hnum.1 D le_rfl).2 0).2 (by simp)
  obtain ⟨a1, a2, a3⟩ := hs.2.1.entity _ _ _ ht
  rw [hs.1] at a3
  have hsub : t.toFinset ⊆ Finset.range (D + 1) := fun a ha => Finset.mem_range.2 (a3 a (List.mem_toFinset.1 ha))
  have hset := Finset.eq_of_subset_of_card_le hsub (by rw [List.toFinset_card_of_nodup a1, a2, Finset.card_range])
  refine ⟨t, ht, a1, fun a => by rw [← List.mem_toFinset, hset, Finset.mem_range], fun x => ?_⟩
  obtain ⟨g, b, hb⟩ := baryForms_exist _ (proper_independent hs)
  refine ⟨fun i => if h : i < D + 1 then eval x (linForm (g ⟨i, h⟩) (b ⟨i, h⟩)) else 0, ?_, ?_⟩
  · rw [← List.sum_toFinset _ a1, hset, Finset.sum_range, ← hb.sum_one x]
    exact Finset.sum_congr rfl fun i _ => by rw [dif_pos i.2]
  · rw [← List.sum_toFinset _ a1, hset, Finset.sum_range]
    conv_lhs => rw [← hb.comb x]
    exact Finset.sum_congr rfl fun i _ => by beta_reduce; rw [dif_pos i.2]

end
end FIAT
