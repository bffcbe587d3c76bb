/-
C60: the Mardal-Tai-Winther element (FIAT/mardal_tai_winther.py).
-/
import Verif.Lemmas.MTWZero
import Verif.Lemmas.ConstrainedBasis
import Verif.Lemmas.DofCheck
import Verif.Props.RTExample

namespace FIAT
open MvPolynomial MeasureTheory
section

/-- Specification: the Mardal-Tai-Winther space of the triangle `s`: the fields with cubic components, constant divergence and, on every
edge, a normal component of degree at most one. -/
def IsMTW (s : SimplexCell (Fin 2 → ℝ)) (w : Fin 2 → MvPolynomial (Fin 2) ℝ) : Prop :=
  (∀ j, (w j).totalDegree ≤ 3) ∧ (∃ k : ℝ, ∀ x, eval x (pderiv 0 (w 0) + pderiv 1 (w 1)) = k) ∧
  ∀ e t, HasEntity s.topo 1 e t → ∀ n : Fin 2 → ℝ, (∀ a ∈ t, ∀ c ∈ t, ∑ j, n j * (s.v a j - s.v c j) = 0) →
    ∃ p : MvPolynomial (Fin 2) ℝ, p.totalDegree ≤ 1 ∧ ∀ x, OnEntity s t x → ∑ j, n j * eval x (w j) = eval x p

/-- The dof numbering of `MardalTaiWintherDual`. -/
private def mtwIds : EntityIds ℕ :=
  [(0, [(0, []), (1, []), (2, [])]), (1, [(0, [0, 1, 2, 9, 10]), (1, [3, 4, 5, 11, 12]), (2, [6, 7, 8, 13, 14])]), (2, [(0, [15, 16, 17, 18, 19])])]

/-- The nodes of `MardalTaiWintherDual`. -/
private def mtwNodes (L : ℕ → ℕ → Functional ℝ (Fin 2 → ℝ)) (ls : List (Functional ℝ (Fin 2 → ℝ))) : List (Functional ℝ (Fin 2 → ℝ)) :=
  [L 0 0, L 0 1, L 0 2, L 1 0, L 1 1, L 1 2, L 2 0, L 2 1, L 2 2, L 0 3, L 0 4, L 1 3, L 1 4, L 2 3, L 2 4] ++ ls

private theorem mtwNodes_mem (L : ℕ → ℕ → Functional ℝ (Fin 2 → ℝ)) (ls : List (Functional ℝ (Fin 2 → ℝ))) (P : Functional ℝ (Fin 2 → ℝ) → Prop) :
    (∀ l ∈ mtwNodes L ls, P l) ↔ (∀ e < 3, ∀ i < 5, P (L e i)) ∧ ∀ l ∈ ls, P l := by
  have h1 : (∀ e < 3, ∀ i < 5, P (L e i)) ↔ ∀ l ∈ [L 0 0, L 0 1, L 0 2, L 1 0, L 1 1, L 1 2, L 2 0, L 2 1, L 2 2, L 0 3, L 0 4, L 1 3, L 1 4, L 2 3, L 2 4], P l := by
    simp only [List.forall_mem_cons]
    constructor
    · intro h
      refine ⟨h 0 (by omega) 0 (by omega), h 0 (by omega) 1 (by omega), h 0 (by omega) 2 (by omega), h 1 (by omega) 0 (by omega),
        h 1 (by omega) 1 (by omega), h 1 (by omega) 2 (by omega), h 2 (by omega) 0 (by omega), h 2 (by omega) 1 (by omega),
        h 2 (by omega) 2 (by omega), h 0 (by omega) 3 (by omega), h 0 (by omega) 4 (by omega), h 1 (by omega) 3 (by omega),
        h 1 (by omega) 4 (by omega), h 2 (by omega) 3 (by omega), h 2 (by omega) 4 (by omega), by simp⟩
    · rintro ⟨h00, h01, h02, h10, h11, h12, h20, h21, h22, h03, h04, h13, h14, h23, h24, -⟩ e he i hi
      rcases e with _ | _ | _ | e <;> rcases i with _ | _ | _ | _ | _ | i <;> first | assumption | omega
  rw [h1, mtwNodes]
  constructor
  · intro h
    exact ⟨fun l hl => h l (List.mem_append_left _ hl), fun l hl => h l (List.mem_append_right _ hl)⟩
  · rintro ⟨ha, hb⟩ l hl
    rcases List.mem_append.1 hl with h | h
    · exact ha l h
    · exact hb l h

private theorem mtw_ids_same {s : SimplexCell (Fin 2 → ℝ)} (hnum : NumberedSimplex s) : SameEntities s.topo mtwIds := by
  intro d e
  by_cases hd : d ≤ 2
  · rw [(hnum.1 d hd).2 e]
    rcases d with _ | _ | _ | d
    · rcases e with _ | _ | _ | e <;> simp [mtwIds, EntityIds.at?, Dict.get?]
    · rcases e with _ | _ | _ | e <;> simp [mtwIds, EntityIds.at?, Dict.get?]
    · rcases e with _ | e <;> simp [mtwIds, EntityIds.at?, Dict.get?]
    · omega
  · constructor
    · intro h
      rcases d with _ | _ | _ | d
      · omega
      · omega
      · omega
      · simp [mtwIds, EntityIds.at?, Dict.get?] at h
    · rintro ⟨t, ht⟩
      exact absurd (hnum.2 d e t ht) hd

/-- Zero normal component and zero integral of the tangential component on the edge `t` (traversed in the order of `t`). -/
def EdgeZero (s : SimplexCell (Fin 2 → ℝ)) (t : List ℕ) (n τ : Fin 2 → ℝ) (w : Fin 2 → MvPolynomial (Fin 2) ℝ) : Prop :=
  (∀ x, OnEntity s t x → ∑ j, n j * eval x (w j) = 0) ∧
    ∃ a c, t = [a, c] ∧ ∫ r in (0 : ℝ)..1, (∑ j, τ j * eval (s.v a + r • (s.v c - s.v a)) (w j)) = 0

/-- The nodes and dofs of `MardalTaiWintherDual`. -/
private theorem mtw_dual_spec {gj : ℕ → ℕ → List ℝ} (hgj : NodesOK gj) {leg : ℕ → List ℝ × List ℝ} (hleg : IsLeggauss 7 (leg 7).1 (leg 7).2)
    {s : SimplexCell (Fin 2 → ℝ)} (hs : ProperSimplex ℝ s) (hnum : NumberedSimplex s) (ho : 0 < orientation fun i : Fin 3 => s.v i)
    {nrm : ℕ → Option (Fin 2 → ℝ)} (hn : FacetNormals s nrm) :
    ∃ L ls, mtwDual gj leg s nrm = some (mtwNodes L ls, mtwIds) ∧ ls.length = 5 ∧ (∀ l ∈ mtwNodes L ls, l.WF 2) ∧
      (∃ l ∈ mtwNodes L ls, 0 < l.maxDerivOrder) ∧
      (∀ w, FullDeg 3 w → ((∀ l ∈ ls, l.onField (fieldOf w) = 0) ↔ ∃ k : ℝ, ∀ x, eval x (divP w) = k)) ∧
      ∀ e t, HasEntity s.topo 1 e t → ∀ n τ, nrm e = some n → edgeTangent s e = some τ → ∀ w, FullDeg 3 w →
        (((L e 3).onField (fieldOf w) = 0 ∧ (L e 4).onField (fieldOf w) = 0) ↔ NormalLinear s t n w) ∧
        ((∀ i < 5, (L e i).onField (fieldOf w) = 0) ↔ EdgeZero s t n τ w) := by
  obtain ⟨F', f1, f2, f3, f4, f5⟩ := ufc_cell_spec (d := 1) (by omega)
  obtain ⟨Q, q1, q2, q3, q4⟩ := simplex_rule_spec hgj (D := 1) (by omega) (ufcVerts ℝ 1) f5 6 (by norm_num)
  obtain ⟨F, S, T, i1, i2, i3, i4, k0, α, β, hk, hβ, h0, h1⟩ := interval_set Q.pts
  have hex : ∀ e : ℕ, ∃ f : ℕ → Functional ℝ (Fin 2 → ℝ), e < 3 →
      mtwEdge s nrm Q (T ⟨0, by decide⟩ ()) (T ⟨1, by decide⟩ ()) e = some [f 0, f 1, f 2] ∧ legendreNormalMoment leg s nrm e 2 6 = some (f 3) ∧
      legendreNormalMoment leg s nrm e 3 6 = some (f 4) ∧ (∀ i < 5, PlainNode (f i)) ∧
      ∀ t, HasEntity s.topo 1 e t → ∀ n τ, nrm e = some n → edgeTangent s e = some τ → ∀ w, FullDeg 3 w →
        (((f 3).onField (fieldOf w) = 0 ∧ (f 4).onField (fieldOf w) = 0) ↔ NormalLinear s t n w) ∧
        ((∀ i < 5, (f i).onField (fieldOf w) = 0) ↔ EdgeZero s t n τ w) := by
    intro e
    by_cases he : e < 3
    · obtain ⟨t, ht⟩ := facet_exists (le_refl 2) hnum he
      obtain ⟨l0, l1, l2, l3, l4, b1, b2, b3, p0, p1, p2, p3, p4, b4⟩ := mtw_edge_spec hleg hs hn q2.line q3 q4 hk hβ h0 h1 ht
      refine ⟨fun i => [l0, l1, l2, l3, l4].getD i l0, fun _ => ⟨b1, b2, b3, ?_, ?_⟩⟩
      · intro i hi
        rcases i with _ | _ | _ | _ | _ | i
        exacts [p0, p1, p2, p3, p4, by omega]
      · intro t' ht' n τ hn' hτ w hw
        obtain rfl := hasEntity_unique ht ht'
        obtain ⟨c1, c2⟩ := b4 n τ hn' hτ w hw
        refine ⟨c1, ?_⟩
        unfold EdgeZero
        rw [← c2]
        constructor
        · intro h
          exact ⟨h 0 (by omega), h 1 (by omega), h 2 (by omega), h 3 (by omega), h 4 (by omega)⟩
        · rintro ⟨z0, z1, z2, z3, z4⟩ i hi
          rcases i with _ | _ | _ | _ | _ | i
          exacts [z0, z1, z2, z3, z4, by omega]
    · exact ⟨fun _ => ⟨[], []⟩, fun h => absurd h he⟩
  choose L hL using hex
  obtain ⟨ls, d1, d2, d3, d4, d5⟩ := divergence_moments_spec hgj hs ho
  obtain ⟨e00, e01, e02, -⟩ := hL 0 (by norm_num)
  obtain ⟨e10, e11, e12, -⟩ := hL 1 (by norm_num)
  obtain ⟨e20, e21, e22, -⟩ := hL 2 (by norm_num)
  refine ⟨L, ls, ?_, d2, ?_, ?_, d5, ?_⟩
  · have r3 : List.range 3 = [0, 1, 2] := by decide
    have q1' : simplexRule gj 1 F.verts 6 = some Q := by rw [i2]; exact q1
    have hE : mtwEdgeDofs gj s nrm = some ([L 0 0, L 0 1, L 0 2, L 1 0, L 1 1, L 1 2, L 2 0, L 2 1, L 2 2],
        [(0, [0, 1, 2]), (1, [3, 4, 5]), (2, [6, 7, 8])]) := by
      unfold mtwEdgeDofs
      simp only [i1, q1', i3, i4, Option.bind_eq_bind, Option.bind_some, r3, List.foldlM_cons, List.foldlM_nil, e00, e10, e20, Option.map_some,
        Option.pure_def]
      rfl
    have hC : mtwConstraints gj leg s nrm 9 = some ([L 0 3, L 0 4, L 1 3, L 1 4, L 2 3, L 2 4] ++ ls,
        [(0, [9, 10]), (1, [11, 12]), (2, [13, 14])], [15, 16, 17, 18, 19]) := by
      unfold mtwConstraints
      simp only [Option.bind_eq_bind, Option.bind_some, r3, List.foldlM_cons, List.foldlM_nil, e01, e02, e11, e12, e21, e22, Option.map_some,
        Option.pure_def, d1, d2]
      rfl
    unfold mtwDual
    simp only [hE, Option.bind_eq_bind, Option.bind_some, List.length_cons, List.length_nil]
    norm_num
    rw [hC]
    simp only [Option.bind_some, r3, List.foldlM_cons, List.foldlM_nil, Option.bind_eq_bind]
    rfl
  · rw [mtwNodes_mem]
    exact ⟨fun e he i hi => ((hL e he).2.2.2.1 i hi).1, d3⟩
  · obtain ⟨l, hl, hl2⟩ := d4
    exact ⟨l, List.mem_append_right _ hl, hl2⟩
  · intro e t h
    have he : e < 3 := by
      have := ((hnum.1 1 (by omega)).2 e).1 ⟨t, h⟩
      simpa using this
    exact (hL e he).2.2.2.2 t h

private theorem mtw_partition : DofsPartition mtwIds 20 :=
  dofsPartition_of_perm _ _ (by simp [Topology.WF, Dict.WF, mtwIds, Dict.keys]) (by decide)

private theorem mtwNodes_get (L : ℕ → ℕ → Functional ℝ (Fin 2 → ℝ)) (ls : List (Functional ℝ (Fin 2 → ℝ))) (hls : ls.length = 5)
    (P : Functional ℝ (Fin 2 → ℝ) → Prop) :
    (∀ (i : ℕ) l, 9 ≤ i → (mtwNodes L ls)[i]? = some l → P l) ↔ (∀ e < 3, P (L e 3) ∧ P (L e 4)) ∧ ∀ l ∈ ls, P l := by
  constructor
  · intro h
    refine ⟨fun e he => ?_, fun l hl => ?_⟩
    · rcases e with _ | _ | _ | e
      · exact ⟨h 9 _ (by omega) rfl, h 10 _ (by omega) rfl⟩
      · exact ⟨h 11 _ (by omega) rfl, h 12 _ (by omega) rfl⟩
      · exact ⟨h 13 _ (by omega) rfl, h 14 _ (by omega) rfl⟩
      · omega
    · obtain ⟨i, hi⟩ := List.mem_iff_getElem?.1 hl
      refine h (15 + i) l (by omega) ?_
      rw [mtwNodes, List.getElem?_append_right (by simp)]
      simpa using hi
  · rintro ⟨h1, h2⟩ i l hi hl
    by_cases h15 : i < 15
    · rw [mtwNodes, List.getElem?_append_left (by simpa using h15)] at hl
      obtain ⟨a0, a1⟩ := h1 0 (by omega)
      obtain ⟨b0, b1⟩ := h1 1 (by omega)
      obtain ⟨c0, c1⟩ := h1 2 (by omega)
      have hc : i = 9 ∨ i = 10 ∨ i = 11 ∨ i = 12 ∨ i = 13 ∨ i = 14 := by omega
      rcases hc with rfl | rfl | rfl | rfl | rfl | rfl <;> simp at hl <;> subst hl <;> assumption
    · rw [mtwNodes, List.getElem?_append_right (by simp; omega)] at hl
      exact h2 l (List.mem_of_getElem? hl)

/-- The Mardal-Tai-Winther fields are the cubic fields on which the constraints vanish. -/
private theorem mtw_constraints {s : SimplexCell (Fin 2 → ℝ)} (hs : ProperSimplex ℝ s) (hnum : NumberedSimplex s) {nrm : ℕ → Option (Fin 2 → ℝ)}
    (hn : FacetNormals s nrm) (w : Fin 2 → MvPolynomial (Fin 2) ℝ) :
    IsMTW s w ↔ FullDeg 3 w ∧ (∃ k : ℝ, ∀ x, eval x (divP w) = k) ∧
      ∀ e t n, HasEntity s.topo 1 e t → nrm e = some n → NormalLinear s t n w := by
  have hdiv : (∃ k : ℝ, ∀ x, eval x (divP w) = k) ↔ ∃ k : ℝ, ∀ x, eval x (pderiv 0 (w 0) + pderiv 1 (w 1)) = k := by
    unfold divP
    rw [Fin.sum_univ_two]
  rw [hdiv]
  unfold IsMTW
  refine and_congr Iff.rfl (and_congr Iff.rfl ⟨fun h e t n ht hne => ?_, fun h e t ht n hperp => ?_⟩)
  · obtain ⟨n', n1, n2, n3⟩ := hn e t ht
    rw [hne, Option.some.injEq] at n1
    subst n1
    exact h e t ht n n3
  · obtain ⟨m, n1, n2, n3⟩ := hn e t ht
    obtain ⟨p, p1, p2⟩ := h e t m ht n1
    obtain ⟨a, c, rfl, hac, -, -, -, hne⟩ := edge_data hs ht
    have e1 := n3 c (by simp) a (by simp)
    have e2 := hperp c (by simp) a (by simp)
    rw [Fin.sum_univ_two] at e1 e2
    -- `n` is a multiple of `m`
    have hdet : m 0 * n 1 - m 1 * n 0 = 0 := by
      by_contra hcon
      apply hne
      have g0 : (m 0 * n 1 - m 1 * n 0) * (s.v c 0 - s.v a 0) = 0 := by linear_combination n 1 * e1 - m 1 * e2
      have g1 : (m 0 * n 1 - m 1 * n 0) * (s.v c 1 - s.v a 1) = 0 := by linear_combination m 0 * e2 - n 0 * e1
      funext j
      fin_cases j
      · exact (mul_eq_zero.1 g0).resolve_left hcon
      · exact (mul_eq_zero.1 g1).resolve_left hcon
    have hpos : m 0 ^ 2 + m 1 ^ 2 ≠ 0 := by
      intro h
      apply n2
      funext j
      fin_cases j
      · show m 0 = 0; nlinarith [sq_nonneg (m 0), sq_nonneg (m 1)]
      · show m 1 = 0; nlinarith [sq_nonneg (m 0), sq_nonneg (m 1)]
    refine ⟨C ((m 0 * n 0 + m 1 * n 1) / (m 0 ^ 2 + m 1 ^ 2)) * p, ?_, fun x hx => ?_⟩
    · refine (totalDegree_mul _ _).trans ?_
      rw [totalDegree_C, zero_add]
      exact p1
    · have := p2 x hx
      rw [map_mul, eval_C, ← this, Fin.sum_univ_two, Fin.sum_univ_two]
      field_simp
      linear_combination (m 0 * eval x (w 1) - m 1 * eval x (w 0)) * hdet

/-- C60: `MardalTaiWinther(cell, 3)` on a triangle is a nodal element for the cubic vector fields with twenty nodes; there are none on the
vertices, five on every edge and five on the cell.  All nodes of an edge vanish exactly if the normal component vanishes on the edge and the
tangential component has integral zero; and the first nine basis functions (three for every edge) span the Mardal-Tai-Winther space. -/
theorem mardal_tai_winther_spec {gj : ℕ → ℕ → List ℝ} (hgj : NodesOK gj) {leg : ℕ → List ℝ × List ℝ} (hleg : IsLeggauss 7 (leg 7).1 (leg 7).2)
    (s : SimplexCell (Fin 2 → ℝ)) (hs : ProperSimplex ℝ s) (hnum : NumberedSimplex s) (ho : 0 < orientation fun i : Fin 3 => s.v i)
    {nrm : ℕ → Option (Fin 2 → ℝ)} (hn : FacetNormals s nrm) :
    ∃ m el nodes ids ψ, mardalTaiWinther gj leg s nrm 3 = some (⟨m, el⟩, nodes, ids) ∧ m = 20 ∧ nodes.length = 20 ∧
      IsNodalBasisC (fun c : Fin 2 => [(c : ℕ)]) (FullDeg 3) nodes el ψ ∧
      DofsPartition ids 20 ∧ SameEntities s.topo ids ∧
      (∀ e t, HasEntity s.topo 0 e t → ids.at? 0 e = some []) ∧
      (∀ e t, HasEntity s.topo 1 e t → ∃ l, ids.at? 1 e = some l ∧ l.length = 5 ∧
        (∀ i : ℕ, i ∈ l ∧ i < 9 ↔ i = 3 * e ∨ i = 3 * e + 1 ∨ i = 3 * e + 2) ∧
        ∀ n τ, nrm e = some n → edgeTangent s e = some τ → ∀ w, FullDeg 3 w →
          ((∀ i ∈ l, ∃ node, nodes[i]? = some node ∧ node.onField (fieldOf w) = 0) ↔ EdgeZero s t n τ w)) ∧
      (∃ l, ids.at? 2 0 = some l ∧ l.length = 5) ∧
      ∀ w, w ∈ Submodule.span ℝ {f | ∃ i : Fin m, (i : ℕ) < 9 ∧ f = ψ i} ↔ IsMTW s w := by
  obtain ⟨m, S, v1, v2, v3, φ, v4, v5, v6, v7⟩ := vec_space_spec (D := 2) (by omega) s hs ho 3 (by norm_num)
  obtain ⟨L, ls, d1, d2, d3, d4, d5, d6⟩ := mtw_dual_spec hgj hleg hs hnum ho hn
  have hm : m = 20 := v3.trans (by decide)
  have hlen : (mtwNodes L ls).length = 20 := by simp [mtwNodes, d2]
  have hE : ∀ {e t}, HasEntity s.topo 1 e t → e < 3 := fun {e t} h => by
    have := ((hnum.1 1 (by omega)).2 e).1 ⟨t, h⟩
    simpa using this
  have hsep : ∀ w, FullDeg 3 w → (∀ l ∈ mtwNodes L ls, l.onField (fieldOf w) = 0) → w = 0 := by
    intro w hw hz
    obtain ⟨z1, z2⟩ := (mtwNodes_mem L ls _).1 hz
    have hez : ∀ e t, HasEntity s.topo 1 e t → ∀ n τ, nrm e = some n → edgeTangent s e = some τ → EdgeZero s t n τ w :=
      fun e t h n τ h1 h2 => ((d6 e t h n τ h1 h2 w hw).2).1 (z1 e (hE h))
    refine mtw_zero hs hn hw ?_ ((d5 w hw).1 z2) ?_
    · intro e t n h hne
      obtain ⟨a, c, rfl, -, -, -, t1, -⟩ := edge_data hs h
      exact (hez e _ h n _ hne t1).1
    · intro e a c h
      obtain ⟨n, n1, -⟩ := hn e _ h
      obtain ⟨a', c', e0, -, -, -, t1, -⟩ := edge_data hs h
      simp only [List.cons.injEq, and_true] at e0
      obtain ⟨rfl, rfl⟩ := e0
      obtain ⟨-, a', c', e0, h2⟩ := hez e _ h n _ n1 t1
      simp only [List.cons.injEq, and_true] at e0
      obtain ⟨rfl, rfl⟩ := e0
      exact h2
  obtain ⟨el, c1, -, -, -, -, -, c2⟩ := any_element_nodal (by norm_num) φ (fun c : Fin 2 => [(c : ℕ)])
    (fun a b h => by simpa [Fin.ext_iff] using h) S v2 v4 v5 (FullDeg 3) v6 v7 (mtwNodes L ls) (by rw [hlen, hm]) (by omega) d3 (Or.inl d4) hsep
  obtain ⟨ψ, hψ⟩ := c2.basis
  refine ⟨m, el, mtwNodes L ls, mtwIds, ψ, ?_, hm, hlen, hψ, mtw_partition, mtw_ids_same hnum, ?_, ?_, ?_, ?_⟩
  · unfold mardalTaiWinther
    rw [if_neg (by norm_num)]
    simp only [v1, d1, Option.bind_eq_bind, Option.bind_some]
    rw [c1]
    rfl
  · intro e t h
    have he := ((hnum.1 0 (by omega)).2 e).1 ⟨t, h⟩
    have he : e < 3 := by simpa using he
    rcases e with _ | _ | _ | e
    · rfl
    · rfl
    · rfl
    · omega
  · intro e t h
    have hzero : ∀ n τ, nrm e = some n → edgeTangent s e = some τ → ∀ w, FullDeg 3 w → _ := fun n τ h1 h2 w hw => (d6 e t h n τ h1 h2 w hw).2
    have key : ∀ l : List ℕ, (l.map fun i => (mtwNodes L ls)[i]?) = [some (L e 0), some (L e 1), some (L e 2), some (L e 3), some (L e 4)] →
        ∀ w, (∀ i ∈ l, ∃ node, (mtwNodes L ls)[i]? = some node ∧ node.onField (fieldOf w) = 0) ↔ ∀ i < 5, (L e i).onField (fieldOf w) = 0 := by
      intro l hl w
      have hb := block_zero (nodes := mtwNodes L ls) (l := l) (blk := [L e 0, L e 1, L e 2, L e 3, L e 4]) hl w
      rw [hb]
      simp only [List.forall_mem_cons, List.not_mem_nil, false_imp_iff, implies_true, and_true]
      constructor
      · rintro ⟨z0, z1, z2, z3, z4⟩ i hi
        rcases i with _ | _ | _ | _ | _ | i
        exacts [z0, z1, z2, z3, z4, by omega]
      · intro h
        exact ⟨h 0 (by omega), h 1 (by omega), h 2 (by omega), h 3 (by omega), h 4 (by omega)⟩
    have he := hE h
    rcases e with _ | _ | _ | e
    · refine ⟨[0, 1, 2, 9, 10], rfl, rfl, fun i => by simp only [List.mem_cons, List.not_mem_nil, or_false]; omega, fun n τ h1 h2 w hw => ?_⟩
      rw [key _ rfl, hzero n τ h1 h2 w hw]
    · refine ⟨[3, 4, 5, 11, 12], rfl, rfl, fun i => by simp only [List.mem_cons, List.not_mem_nil, or_false]; omega, fun n τ h1 h2 w hw => ?_⟩
      rw [key _ rfl, hzero n τ h1 h2 w hw]
    · refine ⟨[6, 7, 8, 13, 14], rfl, rfl, fun i => by simp only [List.mem_cons, List.not_mem_nil, or_false]; omega, fun n τ h1 h2 w hw => ?_⟩
      rw [key _ rfl, hzero n τ h1 h2 w hw]
    · omega
  · exact ⟨_, rfl, rfl⟩
  · intro w
    rw [constrained_span hψ (by rw [hlen, hm]) ?_ ?_ ?_ 9 w, mtw_constraints hs hnum hn]
    · refine and_congr_right fun hw => ?_
      rw [mtwNodes_get L ls d2, and_comm]
      refine and_congr (d5 w hw) ⟨fun h e t n ht hne => ?_, fun h e he => ?_⟩
      · obtain ⟨a, c, rfl, -, -, -, t1, -⟩ := edge_data hs ht
        exact (d6 e _ ht n _ hne t1 w hw).1.1 (h e (hE ht))
      · obtain ⟨t, ht⟩ := facet_exists (le_refl 2) hnum he
        obtain ⟨n, n1, -⟩ := hn e t ht
        obtain ⟨a, c, rfl, -, -, -, t1, -⟩ := edge_data hs ht
        exact (d6 e _ ht n _ n1 t1 w hw).1.2 (h e _ n ht n1)
    · intro w w' h1 h2 j
      exact (totalDegree_add _ _).trans (max_le (h1 j) (h2 j))
    · intro c w h j
      exact (totalDegree_smul_le _ _).trans (h j)
    · intro j
      simp

/-- C60: any other degree is rejected. -/
theorem mardal_tai_winther_rejects (gj : ℕ → ℕ → List ℝ) (leg : ℕ → List ℝ × List ℝ) (s : SimplexCell (Fin 2 → ℝ))
    (nrm : ℕ → Option (Fin 2 → ℝ)) (degree : ℕ) (h : degree ≠ 3) : mardalTaiWinther gj leg s nrm degree = none := by
  unfold mardalTaiWinther
  rw [if_pos h]

/-- The UFC triangle satisfies the hypotheses of `mardal_tai_winther_spec`. -/
example : ∃ gj leg m el nodes ids, mardalTaiWinther gj leg ((ufcTriangle : CellData ℝ).toSimplex 2)
    (ufcScaledNormal ((ufcTriangle : CellData ℝ).toSimplex 2) fun _ => [Real.sqrt 2]) 3 = some (⟨m, el⟩, nodes, ids) ∧ m = 20 := by
  obtain ⟨gj, hgj⟩ := nodesOK_exists
  obtain ⟨xs, ws, hleg⟩ := leggauss_exists 7 (by norm_num)
  have ho : 0 < orientation fun i : Fin 3 => ((ufcTriangle : CellData ℝ).toSimplex 2).v i := by
    have hverts : (fun i : Fin 3 => ((ufcTriangle : CellData ℝ).toSimplex 2).v i) = ufcVerts ℝ 2 := by
      funext i l
      fin_cases i <;> fin_cases l <;> rfl
    rw [hverts]
    obtain ⟨-, -, -, -, -, h⟩ := ufc_cell_spec (d := 2) (by omega)
    exact h
  obtain ⟨m, el, nodes, ids, ψ, h1, h2, -⟩ := mardal_tai_winther_spec hgj (leg := fun _ => (xs, ws)) hleg _ (proper_ufcTriangle (K := ℝ))
    numbered_ufcTriangle ho (ufc_triangle_normals _ proper_ufcTriangle fun _ => [Real.sqrt 2])
  exact ⟨gj, _, m, el, nodes, ids, h1, h2⟩

/-- The constant fields are Mardal-Tai-Winther fields. -/
example (s : SimplexCell (Fin 2 → ℝ)) (c : Fin 2 → ℝ) : IsMTW s fun j => C (c j) := by
  refine ⟨fun j => by simp, ⟨0, fun x => by simp⟩, fun e t _ n _ => ⟨C (∑ j, n j * c j), by rw [totalDegree_C]; norm_num, fun x _ => by simp⟩⟩

end
end FIAT
