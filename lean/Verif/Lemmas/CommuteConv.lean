/-
C74: the nodes of the integral variant of Raviart-Thomas vanish on a field whose facet and cell moments vanish.
-/
import Verif.Lemmas.CommuteNed

open MeasureTheory
namespace FIAT
open MvPolynomial
section
variable {D : ℕ}

theorem mapM_mem_inv {α β : Type} (f : α → Option β) : ∀ (l : List α) (L : List β), l.mapM f = some L → ∀ b ∈ L, ∃ a ∈ l, f a = some b := by
  intro l
  induction l with
  | nil =>
    intro L h b hb
    rw [List.mapM_nil] at h
    obtain rfl := Option.some.inj h
    simp at hb
  | cons b l ih =>
    intro L h e he
    rw [List.mapM_cons] at h
    obtain ⟨c, h1, h⟩ := Option.bind_eq_some_iff.1 h
    obtain ⟨bs, h2, h⟩ := Option.bind_eq_some_iff.1 h
    obtain rfl := Option.some.inj h
    rcases List.mem_cons.1 he with rfl | he
    · exact ⟨b, List.mem_cons_self .., h1⟩
    · obtain ⟨a, x, y⟩ := ih bs h2 e he
      exact ⟨a, List.mem_cons_of_mem _ x, y⟩

/-- The facet nodes are moments. -/
theorem facet_nodes_zero (hD : 2 ≤ D) {s : SimplexCell (Fin D → ℝ)} (hs : ProperSimplex ℝ s) (hnum : NumberedSimplex s) {nrm : ℕ → Option (Fin D → ℝ)}
    (hn : FacetNormals s nrm) (Q : QRule ℝ (Fin (D - 1) → ℝ)) {N k n : ℕ} (hQ : GoodRule Q (ufcVerts ℝ (D - 1)) N) (hl : Q.wts.length = Q.pts.length) (hnd : Q.pts.Nodup)
    {m : ℕ} (φ : Fin m → MvPolynomial (Fin (D - 1)) ℝ) (T : Fin m → Unit → ℕ → ℝ)
    (hspan : Submodule.span ℝ (Set.range φ) = restrictTotalDegree (Fin (D - 1)) ℝ k)
    (hT : ∀ i (j : ℕ) x, Q.pts[j]? = some x → T i () j = eval x (φ i)) {L : List (List (Functional ℝ (Fin D → ℝ)))}
    (hL : (List.range (D + 1)).mapM (fun f => facetMomentNodes s nrm Q T f) = some L)
    {w : Fin D → MvPolynomial (Fin D) ℝ} (hw : ∀ j, (w j).totalDegree ≤ n) (hnk : n + k ≤ N) (hf : FacetMomentsZero s nrm k w) :
    ∀ l ∈ L.flatten, l.onField (fieldOf w) = 0 := by
  intro l hl'
  obtain ⟨blk, b1, b2⟩ := List.mem_flatten.1 hl'
  obtain ⟨e, he, hb⟩ := mapM_mem_inv _ _ _ hL blk b1
  obtain ⟨t, ht⟩ := facet_exists hD hnum (List.mem_range.1 he)
  obtain ⟨a, ha, -⟩ := hn e t ht
  obtain ⟨τ, t1, t2, rfl, -⟩ := entity_tuple hs ht
  have hv := facet_moment_values hs Q hl hnd T ht ha hb w
  have : l.onField (fieldOf w) ∈ blk.map fun b => b.onField (fieldOf w) := List.mem_map.2 ⟨l, b2, rfl⟩
  rw [hv] at this
  obtain ⟨i, -, hi⟩ := List.mem_map.1 this
  have hφ : (φ i).totalDegree ≤ k := by
    rw [← mem_restrictTotalDegree, ← hspan]
    exact Submodule.subset_span ⟨i, rfl⟩
  rw [← hi, quadSum_zip Q.pts Q.wts hl _ (fun x => eval x (φ i)) _ (hT i)]
  have h2 := hQ.1 (φ i * normPull (fun r => s.v (τ r)) a w) ((totalDegree_mul _ _).trans (by have := normPull_degree (fun r => s.v (τ r)) a hw; omega))
  have h3 := hf e τ a ht ha (φ i) hφ
  simp only [map_mul, eval_normPull] at h2
  simp only [eval_normPull]
  exact h2.trans h3

/-- The nodes of the integral variant of Raviart-Thomas. -/
theorem rt_nodes_zero (hD : D = 2 ∨ D = 3) {s : SimplexCell (Fin D → ℝ)} (hs : ProperSimplex ℝ s) (hnum : NumberedSimplex s)
    (ho : 0 < orientation fun i : Fin (D + 1) => s.v i) {gj : ℕ → ℕ → List ℝ} (hgj : NodesOK gj)
    {nrm : ℕ → Option (Fin D → ℝ)} (hn : FacetNormals s nrm) {k q : ℕ} (hq : k + 1 ≤ q) {nodes ids}
    (hnodes : rtDual gj s nrm k (.integral q) = some (nodes, ids)) {w : Fin D → MvPolynomial (Fin D) ℝ}
    (hw : ∀ j, (w j).totalDegree + k ≤ 2 * q - 1) (hf : FacetMomentsZero s nrm k w) (hc : CellMomentsZero s k w) :
    ∀ l ∈ nodes, l.onField (fieldOf w) = 0 := by
  have hD2 : 2 ≤ D := by omega
  have hinc : Increasing fun i : Fin (D + 1) => s.v i := fun h => by omega
  have hD' : D = 1 ∨ D = 2 ∨ D = 3 := Or.inr hD
  have hw' : ∀ j, (w j).totalDegree ≤ 2 * q - 1 - k := fun j => by have := hw j; omega
  obtain ⟨G, g1, g2, g3, g4, g5⟩ := ufc_cell_spec (d := D - 1) (by omega)
  obtain ⟨Q, q1, q2, q3, q4⟩ := simplex_rule_spec hgj (D := D - 1) (by omega) (ufcVerts ℝ (D - 1)) g5 q (by omega)
  obtain ⟨S, T, s1, s2, φ, s3, s4⟩ := scalar_values (by omega) G g2 g3 k Q.pts
  rw [← g4] at q1
  obtain ⟨Q', q1', q2', q3', q4'⟩ := simplex_rule_spec hgj hD' _ ho q (by omega)
  obtain ⟨S', T', s1', s2', φ', s3', s4'⟩ := scalar_values hD' s hs hinc (k - 1) Q'.pts
  rw [← verts_ofFn s hs.2.1 hs.1] at q1'
  unfold rtDual rtIntegralNodes at hnodes
  simp only [g1, q1, s1, s2, numEnts_facets hD2 hnum, Option.bind_eq_bind, Option.bind_some, q1', s1', s2', Option.map_some,
    Option.bind_eq_some_iff] at hnodes
  obtain ⟨nn, ⟨L, hL, hnn⟩, h⟩ := hnodes
  obtain rfl : nn = nodes := by
    split_ifs at h
    · obtain ⟨_, -, h⟩ := Option.bind_eq_some_iff.1 h
      exact (Prod.mk.inj (Option.some.inj h)).1
    · obtain ⟨_, -, h⟩ := Option.bind_eq_some_iff.1 h
      obtain ⟨_, -, h⟩ := Option.bind_eq_some_iff.1 h
      exact (Prod.mk.inj (Option.some.inj h)).1
  have hfac := facet_nodes_zero hD2 hs hnum hn Q q2 q3 q4 φ T s3 s4 hL hw' (by omega) hf
  intro l hl
  split_ifs at hnn with hk
  · rw [← Option.some.inj hnn] at hl
    exact hfac l hl
  · rw [← Option.some.inj hnn] at hl
    rcases List.mem_append.1 hl with hl | hl
    · exact hfac l hl
    · exact ((component_moments_spec _ Q' q2' q3' q4' φ' T' s3' s4').2.2 w fun j => by have := hw j; omega).2
        (fun p hp j => hc p (by omega) j) l hl

end
end FIAT
