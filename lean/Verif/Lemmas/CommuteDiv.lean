/-
C74: the nodes of the integral variants of the H(div) elements vanish on a field only if its facet and cell moments do.
-/
import Verif.Lemmas.Commute
import Verif.Lemmas.CurlNatural
import Verif.Props.ConformDiv
import Verif.Props.DeRham

open MeasureTheory
namespace FIAT
open MvPolynomial
section
variable {D : ℕ}

/-- Quadrature moments against a spanning set of `P_k` are all the moments against `P_k`. -/
theorem quad_moments {d m k N : ℕ} {v : Fin (d + 1) → Fin d → ℝ} (Q : QRule ℝ (Fin d → ℝ)) (hQ : GoodRule Q v N)
    (hl : Q.wts.length = Q.pts.length) (φ : Fin m → MvPolynomial (Fin d) ℝ) (T : Fin m → Unit → ℕ → ℝ)
    (hspan : Submodule.span ℝ (Set.range φ) = restrictTotalDegree (Fin d) ℝ k)
    (hT : ∀ i (j : ℕ) x, Q.pts[j]? = some x → T i () j = eval x (φ i)) {q : MvPolynomial (Fin d) ℝ} (hq : q.totalDegree + k ≤ N)
    (h : ∀ i, quadSum (zipRule Q.pts Q.wts (T i ())) (fun y => eval y q) = 0) (p : MvPolynomial (Fin d) ℝ) (hp : p.totalDegree ≤ k) :
    ∫ y in convexHull ℝ (Set.range v), eval y (p * q) = 0 := by
  have hφ : ∀ i, (φ i).totalDegree ≤ k := by
    intro i
    rw [← mem_restrictTotalDegree, ← hspan]
    exact Submodule.subset_span ⟨i, rfl⟩
  have hm : p ∈ Submodule.span ℝ (Set.range φ) := by rw [hspan, mem_restrictTotalDegree]; exact hp
  obtain ⟨c, rfl⟩ := (Submodule.mem_span_range_iff_exists_fun ℝ).1 hm
  have e : (∑ i, c i • φ i) * q = ∑ i, C (c i) * (φ i * q) := by
    rw [Finset.sum_mul]
    exact Finset.sum_congr rfl fun i _ => by rw [smul_eq_C_mul, mul_assoc]
  rw [e]
  refine integral_comb _ _ fun i _ => ?_
  simp only [map_mul, eval_C]
  rw [integral_const_mul]
  have h1 := h i
  rw [quadSum_zip Q.pts Q.wts hl _ (fun x => eval x (φ i)) _ (hT i)] at h1
  have h2 := hQ.1 (φ i * q) ((totalDegree_mul _ _).trans (by have := hφ i; omega))
  simp only [map_mul] at h2
  rw [← h2]
  exact mul_eq_zero_of_right _ h1

theorem normPull_degree {d n : ℕ} (vc : Fin (d + 1) → Fin D → ℝ) (a : Fin D → ℝ) {w : Fin D → MvPolynomial (Fin D) ℝ}
    (hw : ∀ j, (w j).totalDegree ≤ n) : (normPull vc a w).totalDegree ≤ n := by
  unfold normPull
  refine sum_degree _ _ _ fun j _ => (totalDegree_mul _ _).trans ?_
  rw [totalDegree_C, zero_add]
  exact (totalDegree_pullback _ _ _).trans (hw j)

/-- One facet. -/
theorem facet_block_moments {s : SimplexCell (Fin D → ℝ)} (hs : ProperSimplex ℝ s) {nrm : ℕ → Option (Fin D → ℝ)}
    (Q : QRule ℝ (Fin (D - 1) → ℝ)) {N k n : ℕ} (hQ : GoodRule Q (ufcVerts ℝ (D - 1)) N) (hl : Q.wts.length = Q.pts.length) (hnd : Q.pts.Nodup)
    {m : ℕ} (φ : Fin m → MvPolynomial (Fin (D - 1)) ℝ) (T : Fin m → Unit → ℕ → ℝ)
    (hspan : Submodule.span ℝ (Set.range φ) = restrictTotalDegree (Fin (D - 1)) ℝ k)
    (hT : ∀ i (j : ℕ) x, Q.pts[j]? = some x → T i () j = eval x (φ i))
    {e : ℕ} {τ : Fin (D - 1 + 1) → ℕ} (h : HasEntity s.topo (D - 1) e (List.ofFn τ)) {a : Fin D → ℝ} (hn : nrm e = some a)
    {blk : List (Functional ℝ (Fin D → ℝ))} (hb : facetMomentNodes s nrm Q T e = some blk) {w : Fin D → MvPolynomial (Fin D) ℝ}
    (hw : ∀ j, (w j).totalDegree ≤ n) (hnk : n + k ≤ N) (hz : ∀ l ∈ blk, l.onField (fieldOf w) = 0) (p : MvPolynomial (Fin (D - 1)) ℝ) (hp : p.totalDegree ≤ k) :
    ∫ y in convexHull ℝ (Set.range (ufcVerts ℝ (D - 1))), eval y p * ∑ j, a j * eval (entMap (fun r => s.v (τ r)) y) (w j) = 0 := by
  have hv := facet_moment_values hs Q hl hnd T h hn hb w
  have h1 := quad_moments Q hQ hl φ T hspan hT (q := normPull (fun r => s.v (τ r)) a w)
    ((Nat.add_le_add_right (normPull_degree _ _ hw) k).trans hnk) (fun i => by
      have : quadSum (zipRule Q.pts Q.wts (T i ())) (fun y => eval y (normPull (fun j => s.v (τ j)) a w)) ∈ blk.map fun b => b.onField (fieldOf w) := by
        rw [hv]
        exact List.mem_map.2 ⟨i, List.mem_finRange i, rfl⟩
      obtain ⟨b, hb1, hb2⟩ := List.mem_map.1 this
      rw [← hb2, hz b hb1]) p hp
  simp only [map_mul, eval_normPull] at h1
  exact h1

/-- The facet moments of the Raviart-Thomas and Brezzi-Douglas-Marini elements. -/
theorem facet_blocks_moments (hD : 2 ≤ D) {s : SimplexCell (Fin D → ℝ)} (hs : ProperSimplex ℝ s) (hnum : NumberedSimplex s) {nrm : ℕ → Option (Fin D → ℝ)}
    (Q : QRule ℝ (Fin (D - 1) → ℝ)) {N k n : ℕ} (hQ : GoodRule Q (ufcVerts ℝ (D - 1)) N) (hl : Q.wts.length = Q.pts.length) (hnd : Q.pts.Nodup)
    {m : ℕ} (φ : Fin m → MvPolynomial (Fin (D - 1)) ℝ) (T : Fin m → Unit → ℕ → ℝ)
    (hspan : Submodule.span ℝ (Set.range φ) = restrictTotalDegree (Fin (D - 1)) ℝ k)
    (hT : ∀ i (j : ℕ) x, Q.pts[j]? = some x → T i () j = eval x (φ i)) {L : List (List (Functional ℝ (Fin D → ℝ)))}
    (hL : (List.range (D + 1)).mapM (fun f => facetMomentNodes s nrm Q T f) = some L)
    {w : Fin D → MvPolynomial (Fin D) ℝ} (hw : ∀ j, (w j).totalDegree ≤ n) (hnk : n + k ≤ N) (hz : ∀ l ∈ L.flatten, l.onField (fieldOf w) = 0) :
    FacetMomentsZero s nrm k w := by
  intro e τ a h hn φ' hφ'
  have he : e < D + 1 := facet_lt hD hnum h
  obtain ⟨blk, b1, b2⟩ : ∃ blk ∈ L, facetMomentNodes s nrm Q T e = some blk := by
    have key : ∀ (l : List ℕ) (L : List (List (Functional ℝ (Fin D → ℝ)))), l.mapM (fun f => facetMomentNodes s nrm Q T f) = some L →
        ∀ e ∈ l, ∃ blk ∈ L, facetMomentNodes s nrm Q T e = some blk := by
      intro l
      induction l with
      | nil => simp
      | cons b l ih =>
        intro L h e he
        rw [List.mapM_cons] at h
        obtain ⟨c, h1, h⟩ := Option.bind_eq_some_iff.1 h
        obtain ⟨bs, h2, h⟩ := Option.bind_eq_some_iff.1 h
        obtain rfl := Option.some.inj h
        rcases List.mem_cons.1 he with rfl | he
        · exact ⟨c, List.mem_cons_self .., h1⟩
        · obtain ⟨blk, x, y⟩ := ih bs h2 e he
          exact ⟨blk, List.mem_cons_of_mem _ x, y⟩
    exact key _ _ hL e (List.mem_range.2 he)
  exact facet_block_moments hs Q hQ hl hnd φ T hspan hT h hn b2 hw hnk (fun l hl => hz l (List.mem_flatten.2 ⟨blk, b1, hl⟩)) φ' hφ'

/-- The nodes of the integral variant of Raviart-Thomas. -/
theorem rt_node_moments (hD : D = 2 ∨ D = 3) {s : SimplexCell (Fin D → ℝ)} (hs : ProperSimplex ℝ s) (hnum : NumberedSimplex s)
    (ho : 0 < orientation fun i : Fin (D + 1) => s.v i) {gj : ℕ → ℕ → List ℝ} (hgj : NodesOK gj)
    {nrm : ℕ → Option (Fin D → ℝ)} {k q : ℕ} (hq : k + 1 ≤ q) {nodes ids}
    (hnodes : rtDual gj s nrm k (.integral q) = some (nodes, ids)) {w : Fin D → MvPolynomial (Fin D) ℝ}
    (hw : ∀ j, (w j).totalDegree + k ≤ 2 * q - 1) (hz : ∀ l ∈ nodes, l.onField (fieldOf w) = 0) :
    FacetMomentsZero s nrm k w ∧ CellMomentsZero s k w := by
  have hD2 : 2 ≤ D := by omega
  have hinc : Increasing fun i : Fin (D + 1) => s.v i := fun h => by omega
  have hD' : D = 1 ∨ D = 2 ∨ D = 3 := Or.inr hD
  have hw' : ∀ j, (w j).totalDegree ≤ 2 * q - 1 - k := fun j => by have := hw j; omega
  obtain ⟨G, g1, g2, g3, g4, g5⟩ := ufc_cell_spec (d := D - 1) (by omega)
  obtain ⟨Q, q1, q2, q3, q4⟩ := simplex_rule_spec hgj (D := D - 1) (by omega) (ufcVerts ℝ (D - 1)) g5 q (by omega)
  obtain ⟨S, T, s1, s2, φ, s3, s4⟩ := scalar_values (by omega) G g2 g3 k Q.pts
  rw [← g4] at q1
  obtain ⟨Q', q1', q2', q3', q4'⟩ := simplex_rule_spec hgj hD' _ ho q (by omega)
  obtain ⟨S', T', s1', s2', φ', s3', s4'⟩ := scalar_values hD' s hs hinc (k - 1) Q'.pts
  rw [← verts_ofFn s hs.2.1 hs.1] at q1'
  unfold rtDual rtIntegralNodes at hnodes
  simp only [g1, q1, s1, s2, numEnts_facets hD2 hnum, Option.bind_eq_bind, Option.bind_some, q1', s1', s2', Option.map_some,
    Option.bind_eq_some_iff] at hnodes
  obtain ⟨nn, ⟨L, hL, hnn⟩, h⟩ := hnodes
  obtain rfl : nn = nodes := by
    split_ifs at h
    · obtain ⟨_, -, h⟩ := Option.bind_eq_some_iff.1 h
      exact (Prod.mk.inj (Option.some.inj h)).1
    · obtain ⟨_, -, h⟩ := Option.bind_eq_some_iff.1 h
      obtain ⟨_, -, h⟩ := Option.bind_eq_some_iff.1 h
      exact (Prod.mk.inj (Option.some.inj h)).1
  refine ⟨facet_blocks_moments hD2 hs hnum Q q2 q3 q4 φ T s3 s4 hL hw' (by omega) fun l hl => hz l ?_, fun p hp j => ?_⟩
  · split_ifs at hnn
    · rw [← Option.some.inj hnn]; exact hl
    · rw [← Option.some.inj hnn]; exact List.mem_append_left _ hl
  · have hk : k ≠ 0 := by omega
    rw [if_neg hk] at hnn
    exact ((component_moments_spec _ Q' q2' q3' q4' φ' T' s3' s4').2.2 w fun j => by have := hw j; omega).1
      (fun l hl => hz l (by rw [← Option.some.inj hnn]; exact List.mem_append_right _ hl)) p (by omega) j

end
end FIAT
