/-
Dual sets on a triangle built from a loop over the vertices, a loop over the edges and interior nodes.
-/
import Verif.Lemmas.TriangleC1
import Verif.Lemmas.AnyElement

namespace FIAT
open MvPolynomial
section
variable {s : SimplexCell (Fin 2 → ℝ)}

theorem LoopInv.last {D : ℕ} {N : Type} {blk : ℕ × ℕ → List N} {d : ℕ} {st : ℕ × List N × EntityIds ℕ}
    (h : LoopInv blk ((List.range d).flatMap (entsOf D)) st) (ids' : EntityIds ℕ)
    (hids : ∀ d' e, ids'.at? d' e = if d' = d then (if e = 0 then some (List.range' st.1 (blk (d, 0)).length) else none) else st.2.2.at? d' e) :
    LoopInv blk ((List.range d).flatMap (entsOf D) ++ [(d, 0)]) (st.1 + (blk (d, 0)).length, st.2.1 ++ blk (d, 0), ids') := by
  have hL : ∀ x ∈ (List.range d).flatMap (entsOf D), x.1 ≠ d := by
    intro x hx
    obtain ⟨d', h1, h2⟩ := List.mem_flatMap.1 hx
    have := (mem_entsOf.1 h2).1
    have := List.mem_range.1 h1
    omega
  have hst := h.step d 0 [((blk (d, 0)).length, blk (d, 0))] (by simp) (by simp)
  refine ⟨?_, ?_, fun d' e => ?_⟩
  · rw [← hst.cur]; rfl
  · rw [← hst.nodes]; rfl
  · rw [← hst.ids, hids]
    simp only [List.foldl_cons, List.foldl_nil, chunkStep, setIds_at]
    by_cases hd : d' = d
    · subst hd
      by_cases he : e = 0
      · subst he; simp
      · rw [if_pos rfl, if_neg he, if_neg (by tauto), if_neg (by tauto), h.ids, (blockLoop_spec _ _ (entsFlat_nodup d') _).2,
          if_neg (fun hm => hL _ hm rfl)]
        rfl
    · rw [if_neg hd, if_neg (fun hc => hd hc.1.symm), if_neg (fun hc => hd hc.1.symm)]

theorem triangle_dual (hnum : NumberedSimplex s) {N : Type} {blk : ℕ × ℕ → List N} (f0 f1 : ℕ → Option (List (ℕ × List N)))
    (h0 : ∀ v < 3, ∃ chunks, f0 v = some chunks ∧ (∀ c ∈ chunks, c.1 = c.2.length) ∧ chunks.flatMap Prod.snd = blk (0, v))
    (h1 : ∀ e t, HasEntity s.topo 1 e t → ∃ chunks, f1 e = some chunks ∧ (∀ c ∈ chunks, c.1 = c.2.length) ∧
      chunks.flatMap Prod.snd = blk (1, e)) :
    ∃ st0 st1, entityLoop s 0 f0 (0, [], []) = some st0 ∧ entityLoop s 1 f1 st0 = some st1 ∧
      ∀ ids' : EntityIds ℕ, (∀ d e, ids'.at? d e = if d = 2 then (if e = 0 then some (List.range' st1.1 (blk (2, 0)).length) else none)
        else st1.2.2.at? d e) → EntityBlocks s.topo (allEnts 2) blk (st1.2.1 ++ blk (2, 0)) ids' := by
  obtain ⟨st0, a1, a2⟩ := loop_dim hnum (d := 0) (by omega) (blk := blk) f0 (fun v hv => h0 v (by simpa using hv)) (loopInv_nil _)
  obtain ⟨st1, b1, b2⟩ := loop_dim hnum (d := 1) (by omega) (blk := blk) f1 (fun e he => by
    obtain ⟨t, ht⟩ := ((hnum.1 1 (by omega)).2 e).2 he
    exact h1 e t ht) a2
  refine ⟨st0, st1, a1, b1, fun ids' hids => ?_⟩
  have hthis := b2.last ids' hids
  have hL : (List.range (1 + 1)).flatMap (entsOf 2) ++ [(1 + 1, 0)] = allEnts 2 := rfl
  rw [hL] at hthis
  exact hthis.blocks hnum (entsFlat_nodup 3) (mem_allEnts hnum)

theorem triangle_length {blk : ℕ × ℕ → List (Functional ℝ (Fin 2 → ℝ))} {nodes : List (Functional ℝ (Fin 2 → ℝ))} {ids : EntityIds ℕ}
    (hnum : NumberedSimplex s) (h : EntityBlocks s.topo (allEnts 2) blk nodes ids) (n0 n1 n2 : ℕ)
    (h0 : ∀ v < 3, (blk (0, v)).length = n0) (h1 : ∀ e t, HasEntity s.topo 1 e t → (blk (1, e)).length = n1)
    (h2 : (blk (2, 0)).length = n2) : nodes.length = 3 * n0 + 3 * n1 + n2 := by
  have he : ∀ e < 3, ∃ t, HasEntity s.topo 1 e t := fun e he => ((hnum.1 1 (by omega)).2 e).2 he
  obtain ⟨t0, k0⟩ := he 0 (by omega)
  obtain ⟨t1, k1⟩ := he 1 (by omega)
  obtain ⟨t2, k2⟩ := he 2 (by omega)
  rw [h.1, show allEnts 2 = [(0, 0), (0, 1), (0, 2), (1, 0), (1, 1), (1, 2), (2, 0)] from rfl]
  simp only [List.flatMap_cons, List.flatMap_nil, List.length_append, List.length_nil, h0 0 (by omega), h0 1 (by omega), h0 2 (by omega),
    h1 0 t0 k0, h1 1 t1 k1, h1 2 t2 k2, h2]
  ring

/-- All nodes of the closure of an entity are zero, block by block. -/
theorem scalar_block_zero {D : ℕ} {s : SimplexCell (Fin D → ℝ)} (hnum : NumberedSimplex s) {blk : ℕ × ℕ → List (Functional ℝ (Fin D → ℝ))}
    {nodes : List (Functional ℝ (Fin D → ℝ))} {ids : EntityIds ℕ}
    (h : EntityBlocks s.topo (allEnts D) blk nodes ids) {t : List ℕ}
    {p : MvPolynomial (Fin D) ℝ} (hz : ZeroOnClosure s nodes ids t p) {d e : ℕ} {t' : List ℕ} (he : HasEntity s.topo d e t')
    (hsub : ∀ a ∈ t', a ∈ t) : ∀ r ∈ (blk (d, e)).map (fun node => node.onField (scalarField p)), r = 0 := by
  intro r hr
  obtain ⟨node, hn, rfl⟩ := List.mem_map.1 hr
  exact h.zero_closure hz he ((mem_allEnts hnum _).2 ⟨_, he⟩) hsub node hn

theorem closure_of_all {D : ℕ} {s : SimplexCell (Fin D → ℝ)} {nodes : List (Functional ℝ (Fin D → ℝ))} (ids : EntityIds ℕ)
    {p : MvPolynomial (Fin D) ℝ} (hz : ∀ l ∈ nodes, l.onField (scalarField p) = 0) (t : List ℕ) : ZeroOnClosure s nodes ids t p :=
  fun _ _ _ _ _ _ _ _ _ node hn => hz node (List.mem_of_getElem? hn)

end
end FIAT
