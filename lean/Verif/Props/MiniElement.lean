/-
C64: Lagrange elements enriched by bubbles, and what the documentation of `NodalEnrichedElement` says about the constructor.
-/
import Verif.Lemmas.NodalParts
import Verif.Lemmas.AffinePoly

namespace FIAT
open MvPolynomial
section
variable {D : ℕ} {Cp : Type} [Fintype Cp]

/-- The nodes of a part separate the functions of its space. -/
theorem part_separates {s : SimplexCell (Fin D → ℝ)} {comp : Cp → List ℕ} {V : Submodule ℝ (Cp → MvPolynomial (Fin D) ℝ)} {p : NodalPart D Cp}
    (h : IsNodalPart s comp V p) : SeparatesC comp V p.nodes := by
  obtain ⟨ψ, -, p2, p3, -⟩ := h.nodal
  intro w hw hz
  have := p2 w hw
  rw [Submodule.mem_span_range_iff_exists_fun ℝ] at this
  obtain ⟨a, rfl⟩ := this
  refine Finset.sum_eq_zero fun j _ => ?_
  obtain ⟨l, hl⟩ : ∃ l, p.nodes[(j : ℕ)]? = some l := ⟨_, List.getElem?_eq_getElem (by rw [h.len]; exact j.2)⟩
  have h1 := hz l (List.mem_of_getElem? hl)
  rw [onFieldC_comb, Finset.sum_eq_single j] at h1
  · rw [p3 _ l hl, if_pos rfl, mul_one] at h1
    rw [h1, zero_smul]
  · intro b _ hb
    rw [p3 _ l hl, if_neg (fun h => hb (Fin.ext h.symm)), mul_zero]
  · simp

/-- A Lagrange point of degree `k` lies on an entity of dimension less than `k`. -/
theorem lagrange_node_entity (s : SimplexCell (Fin D → ℝ)) (hs : ProperSimplex ℝ s) {k : ℕ} (hk : 1 ≤ k) {nodes : List (Fin D → ℝ)}
    {ids : EntityIds ℕ} (h : lagrangeDual ℝ s k = some (nodes, ids)) {x : Fin D → ℝ} (hx : x ∈ nodes) :
    ∃ d e t, HasEntity s.topo d e t ∧ OnEntity s t x ∧ d < k := by
  obtain ⟨hsame, hpart, -⟩ := lagrange_dofs_partition s hs.2.1 k hk nodes ids h
  obtain ⟨i, hi⟩ := List.mem_iff_getElem?.1 hx
  obtain ⟨⟨d, e⟩, ⟨l, h1, h2⟩, -⟩ := hpart.2 i (List.getElem?_eq_some_iff.1 hi).1
  simp only at h1
  obtain ⟨t, ht⟩ := (hsame d e).1 (by rw [h1]; rfl)
  obtain ⟨ps, p1, p2⟩ := make_points_mem (K := ℝ) s hs.2.1 k hk ht
  have h3 := lagrange_dof_points s hs.2.1 k hk nodes ids h _ _ _ h1
  rw [p1, Option.getD_some] at h3
  have h4 : some x ∈ ps.map some := by rw [← h3, ← hi]; exact List.mem_map.2 ⟨i, h2, rfl⟩
  obtain ⟨y, hy, e1⟩ := List.mem_map.1 h4
  obtain rfl := Option.some.inj e1
  obtain ⟨β, b1, b2, rfl⟩ := (p2 y).1 hy
  obtain ⟨g1, g2, g3⟩ := hs.2.1.entity _ _ _ ht
  have hz : ∀ a, a ∉ t → β a = 0 := fun a ha => by
    by_contra hb
    exact ha ((b1 a).1 hb)
  refine ⟨d, e, t, ht, ⟨fun a => (β a : ℝ) / k, ?_, ?_⟩, ?_⟩
  · rw [← sum_range_eq_list t g1 (s.sd + 1) g3 _ (fun a ha => by rw [hz a ha]; simp), ← Finset.sum_div]
    rw [show (∑ a ∈ Finset.range (s.sd + 1), (β a : ℝ)) = k by exact_mod_cast b2]
    exact div_self (by positivity)
  · rw [← sum_range_eq_list t g1 (s.sd + 1) g3 (fun a => ((β a : ℝ) / k) • s.v a) (fun a ha => by rw [hz a ha]; simp)]
    rfl
  · have h5 : t.toFinset ⊆ Finset.range (s.sd + 1) := fun a ha => Finset.mem_range.2 (g3 a (List.mem_toFinset.1 ha))
    have h6 : ∑ a ∈ t.toFinset, 1 ≤ ∑ a ∈ Finset.range (s.sd + 1), β a :=
      (Finset.sum_le_sum fun a ha => Nat.one_le_iff_ne_zero.2 ((b1 a).2 (List.mem_toFinset.1 ha))).trans
        (Finset.sum_le_sum_of_subset h5)
    rw [Finset.sum_const, smul_eq_mul, mul_one, List.toFinset_card_of_nodup g1, g2, b2] at h6
    omega

/-- A polynomial in both spaces. -/
private theorem sum_two (V : Fin 2 → Submodule ℝ (Cp → MvPolynomial (Fin D) ℝ)) {w : Cp → MvPolynomial (Fin D) ℝ} :
    w ∈ ⨆ i, V i ↔ ∃ a ∈ V 0, ∃ b ∈ V 1, a + b = w := by
  rw [← Submodule.mem_sup]
  have : (⨆ i, V i) = V 0 ⊔ V 1 := by
    apply le_antisymm
    · exact iSup_le fun i => by
        fin_cases i
        · exact le_sup_left
        · exact le_sup_right
    · exact sup_le (le_iSup V 0) (le_iSup V 1)
  rw [this]

/-- C64: `NodalEnrichedElement(Lagrange(cell, k), Bubble(cell, b))` can be constructed exactly for `k ≤ D`; then it is a nodal element on the
sum of the spaces (for `k = 1`, `b = D + 1`: the MINI element). -/
theorem lagrange_bubble_iff (hD : D = 1 ∨ D = 2 ∨ D = 3) (s : SimplexCell (Fin D → ℝ)) (hs : ProperSimplex ℝ s) (hnum : NumberedSimplex s)
    (hv : Increasing fun i : Fin (D + 1) => s.v i) (k b : ℕ) (hk : 1 ≤ k) (hb : D < b) :
    ∃ L B, lagrangePart s k = some L ∧ bubblePart s b 0 = some B ∧
      ((∃ r, nodalEnriched s (fun _ : Unit => []) [L, B] = some r) ↔ k ≤ D) ∧
      ∀ r, nodalEnriched s (fun _ : Unit => []) [L, B] = some r →
        IsNodalPart s (fun _ : Unit => []) (polySpace D k ⊔ bubbleSub s b 0) r ∧ r.nodes = L.nodes ++ B.nodes ∧
        r.dim = (k + D).choose D + (b - 1).choose D := by
  have hD1 : 1 ≤ D := by omega
  obtain ⟨el, ids, nodes, l1, l2, l3, l4⟩ := lagrange_part hD s hs hv k hk
  obtain ⟨B, b1, b2, b3, b4, b5, b6⟩ := bubble_part hD s hs hnum hv b 0 (by omega) (by omega)
  refine ⟨_, B, l3, b1, ?_⟩
  set L : NodalPart D Unit := ⟨k, (k + D).choose D, el, nodes.map pointEvaluation, ids⟩ with hL
  have hparts : ∀ i : Fin 2, IsNodalPart s (fun _ : Unit => ([] : List ℕ)) ((![polySpace D k, bubbleSub s b 0] : Fin 2 → _) i)
      ((![L, B] : Fin 2 → NodalPart D Unit) i) := by
    intro i
    fin_cases i
    · exact l4
    · exact b6
  have hlist : [L, B] = List.ofFn (![L, B] : Fin 2 → NodalPart D Unit) := by simp [List.ofFn_succ]
  have hsup : (⨆ i, (![polySpace D k, bubbleSub s b 0] : Fin 2 → Submodule ℝ (Unit → MvPolynomial (Fin D) ℝ)) i) = polySpace D k ⊔ bubbleSub s b 0 := by
    ext w
    rw [sum_two, Submodule.mem_sup]
    rfl
  have hiff := nodal_enriched_iff hD s hs hv (fun _ : Unit => ([] : List ℕ)) (fun _ _ _ => rfl) (by norm_num) _ _ hparts
  rw [← hlist, hsup] at hiff
  refine ⟨?_, ?_⟩
  · rw [hiff]
    constructor
    · rintro ⟨hdir, -⟩
      by_contra hkD
      obtain ⟨Q, -, q2, q3, -, -, q4⟩ := bubble_part hD s hs hnum hv (D + 1) 0 (by omega) (by omega)
      obtain ⟨ψ, p1, -, p3, -⟩ := q4.nodal
      have hpos := q4.pos
      have hm := (bubble_space_iff s hs hnum hD1 (by omega) _).1 (p1 ⟨0, hpos⟩)
      have m1 : ψ ⟨0, hpos⟩ ∈ polySpace D k := mem_polySpace.2 (by omega)
      have m2 : ψ ⟨0, hpos⟩ ∈ bubbleSub s b 0 := (bubble_space_iff s hs hnum hD1 (by omega) _).2 ⟨by omega, hm.2⟩
      have h0 := hdir ![ψ ⟨0, hpos⟩, -ψ ⟨0, hpos⟩] (by
        intro i
        fin_cases i
        · exact m1
        · exact Submodule.neg_mem _ m2) (by simp [Fin.sum_univ_two]) 0
      simp only [Matrix.cons_val_zero] at h0
      obtain ⟨l, hl⟩ : ∃ l, Q.nodes[0]? = some l := ⟨_, List.getElem?_eq_getElem (by rw [q4.len]; exact hpos)⟩
      have h1 := p3 0 l hl ⟨0, hpos⟩
      rw [h0, if_pos rfl] at h1
      have h8 : l.onField (fieldC (fun _ : Unit => ([] : List ℕ)) (0 : Unit → MvPolynomial (Fin D) ℝ)) = 0 := by
        have := onFieldC_comb (fun _ : Unit => ([] : List ℕ)) l (0 : Fin 0 → ℝ) (fun _ => 0)
        simpa using this
      rw [h8] at h1
      exact zero_ne_one h1
    · intro hkD
      have hbd : ∀ w ∈ bubbleSub s b 0, ∀ x ∈ nodes, eval x (w ()) = 0 := by
        intro w hw x hx
        obtain ⟨d, e, t, h1, h2, h3⟩ := lagrange_node_entity s hs hk l2 hx
        exact bubble_space_boundary s hs hD1 (by omega) hw h1 (by omega) x h2
      have hzero : ∀ w ∈ polySpace D k, (∀ x ∈ nodes, eval x (w ()) = 0) → w = 0 := by
        intro w hw hz
        refine part_separates l4 w hw fun l hl => ?_
        obtain ⟨x, hx, rfl⟩ := List.mem_map.1 hl
        rw [unit_scalar, point_eval_scalar]
        exact hz x hx
      refine ⟨fun w hw h0 => ?_, fun w hw hz => ?_⟩
      · rw [Fin.sum_univ_two] at h0
        have e0 : w 0 = 0 := by
          refine hzero _ (hw 0) fun x hx => ?_
          have := congrArg (fun f : Unit → MvPolynomial (Fin D) ℝ => eval x (f ())) h0
          simp only [Pi.add_apply, map_add, Pi.zero_apply, map_zero] at this
          rw [hbd _ (hw 1) x hx, add_zero] at this
          exact this
        rw [e0, zero_add] at h0
        intro i
        fin_cases i
        · exact e0
        · exact h0
      · obtain ⟨a, ha, c, hc, rfl⟩ := Submodule.mem_sup.1 hw
        have ea : a = 0 := by
          refine hzero _ ha fun x hx => ?_
          have := hz (pointEvaluation x) (by
            simp only [List.flatMap_cons, List.mem_append]
            exact Or.inl (List.mem_map_of_mem hx))
          rw [unit_scalar, point_eval_scalar, Pi.add_apply, map_add, hbd _ hc x hx, add_zero] at this
          exact this
        rw [ea, zero_add] at hz ⊢
        refine part_separates b6 c hc fun l hl => hz l ?_
        simp only [List.flatMap_cons, List.mem_append]
        exact Or.inr (Or.inl hl)
  · intro r hr
    rw [hlist] at hr
    obtain ⟨h1, h2, h3, -⟩ := nodal_enriched_spec hD s hs hv (fun _ : Unit => ([] : List ℕ)) (fun _ _ _ => rfl) (by norm_num) _ _ hparts hr
    rw [hsup] at h1
    refine ⟨h1, ?_, ?_⟩
    · rw [h2, ← hlist]
      simp
    · rw [h3, Fin.sum_univ_two]
      simp only [Matrix.cons_val_zero, Matrix.cons_val_one]
      rw [b3]
      simp [hL]

/-- C64: so the MINI element on the triangle has 4 dofs, and P3 plus the cubic bubble cannot be constructed. -/
example : ∃ L B r, lagrangePart ((ufcTriangle : CellData ℝ).toSimplex 2) 1 = some L ∧ bubblePart ((ufcTriangle : CellData ℝ).toSimplex 2) 3 0 = some B ∧
    nodalEnriched ((ufcTriangle : CellData ℝ).toSimplex 2) (fun _ : Unit => []) [L, B] = some r ∧ r.dim = 4 := by
  obtain ⟨L, B, h1, h2, h3, h4⟩ := lagrange_bubble_iff (by norm_num) _ (proper_ufcTriangle (K := ℝ)) numbered_ufcTriangle
    (fun h => absurd h (by norm_num)) 1 3 (by norm_num) (by norm_num)
  obtain ⟨r, hr⟩ := h3.2 (by norm_num)
  exact ⟨L, B, r, h1, h2, hr, (h4 r hr).2.2⟩

/-- The Lagrange points are the points of the lattice. -/
theorem lagrange_node_mem (s : SimplexCell (Fin D → ℝ)) (hs : ProperSimplex ℝ s) {k : ℕ} (hk : 1 ≤ k) {nodes : List (Fin D → ℝ)}
    {ids : EntityIds ℕ} (h : lagrangeDual ℝ s k = some (nodes, ids)) (β : ℕ → ℕ) (hβ : ∀ i, s.sd + 1 ≤ i → β i = 0)
    (hsum : ∑ i ∈ Finset.range (s.sd + 1), β i = k) : baryPt ℝ s.v (s.sd + 1) k β ∈ nodes := by
  obtain ⟨hsame, hpart, -⟩ := lagrange_dofs_partition s hs.2.1 k hk nodes ids h
  obtain ⟨d, e, t, ht, hS⟩ := hs.2.1.all ((Finset.range (s.sd + 1)).filter fun i => β i ≠ 0) (by
    rw [Finset.nonempty_iff_ne_empty]
    intro he
    have : ∑ i ∈ Finset.range (s.sd + 1), β i = 0 := Finset.sum_eq_zero fun i hi => by
      by_contra hc
      have : i ∈ (∅ : Finset ℕ) := by rw [← he, Finset.mem_filter]; exact ⟨hi, hc⟩
      simp at this
    omega) (Finset.filter_subset _ _)
  obtain ⟨ps, p1, p2⟩ := make_points_mem (K := ℝ) s hs.2.1 k hk ht
  have hm : baryPt ℝ s.v (s.sd + 1) k β ∈ ps := (p2 _).2 ⟨β, fun i => by
    rw [← List.mem_toFinset, hS, Finset.mem_filter, Finset.mem_range]
    refine ⟨fun hi => ⟨?_, hi⟩, fun hi => hi.2⟩
    by_contra hc
    exact hi (hβ i (by omega)), hsum, rfl⟩
  obtain ⟨l, hl⟩ := Option.isSome_iff_exists.1 ((hsame d e).2 ⟨t, ht⟩)
  have h3 := lagrange_dof_points s hs.2.1 k hk nodes ids h _ _ _ hl
  rw [p1, Option.getD_some] at h3
  have h4 : some (baryPt ℝ s.v (s.sd + 1) k β) ∈ l.map fun (i : ℕ) => nodes[i]? := by rw [h3]; exact List.mem_map_of_mem hm
  obtain ⟨i, -, hi⟩ := List.mem_map.1 h4
  exact List.mem_of_getElem? hi

end

/-- C64: contrary to the documentation of `NodalEnrichedElement`, linear independence of the primal bases does not make the constructor
well-defined: on the unit interval the spaces of `RestrictedElement(Lagrange(1), [i])` and `RestrictedElement(Lagrange(2), [j])`, where the
kept node is the evaluation at 1, form a direct sum, but the construction fails. -/
theorem primal_independence_insufficient :
    ∃ (L₁ L₂ p q : NodalPart 1 Unit) (i j : ℕ) (V W : Submodule ℝ (Unit → MvPolynomial (Fin 1) ℝ)),
      lagrangePart ((ufcInterval : CellData ℝ).toSimplex 1) 1 = some L₁ ∧ lagrangePart ((ufcInterval : CellData ℝ).toSimplex 1) 2 = some L₂ ∧
      restrictPart (fun _ => []) L₁ [(i : ℤ)] = some p ∧ restrictPart (fun _ => []) L₂ [(j : ℤ)] = some q ∧
      IsNodalPart ((ufcInterval : CellData ℝ).toSimplex 1) (fun _ => []) V p ∧ IsNodalPart ((ufcInterval : CellData ℝ).toSimplex 1) (fun _ => []) W q ∧
      DirectSum ![V, W] ∧ nodalEnriched ((ufcInterval : CellData ℝ).toSimplex 1) (fun _ => []) [p, q] = none := by
  have hv : Increasing fun i : Fin (1 + 1) => ((ufcInterval : CellData ℝ).toSimplex 1).v i := fun _ => by
    norm_num [SimplexCell.v, CellData.toSimplex, ufcInterval]
  have hs := proper_ufcInterval (K := ℝ)
  have hD : (1 : ℕ) = 1 ∨ (1 : ℕ) = 2 ∨ (1 : ℕ) = 3 := Or.inl rfl
  set s := (ufcInterval : CellData ℝ).toSimplex 1 with hsdef
  have hsd : s.sd = 1 := hs.1
  have v0 : s.v 0 = fun _ => 0 := by funext u; simp [hsdef, SimplexCell.v, CellData.toSimplex, ufcInterval]
  have v1 : s.v 1 = fun _ => 1 := by funext u; simp [hsdef, SimplexCell.v, CellData.toSimplex, ufcInterval]
  obtain ⟨el₁, ids₁, n₁, -, a2, a3, a4⟩ := lagrange_part hD s hs hv 1 (by norm_num)
  obtain ⟨el₂, ids₂, n₂, -, b2, b3, b4⟩ := lagrange_part hD s hs hv 2 (by norm_num)
  have hpt : ∀ (k x0 x1 : ℕ), 1 ≤ k → x0 + x1 = k → ∀ (n : List (Fin 1 → ℝ)) ids, lagrangeDual ℝ s k = some (n, ids) →
      (fun _ => (x1 : ℝ) / k) ∈ n := by
    intro k x0 x1 hk hx n ids hn
    have := lagrange_node_mem s hs hk hn (fun i => if i = 0 then x0 else if i = 1 then x1 else 0) (fun i hi => by
      rw [hsd] at hi
      beta_reduce
      rw [if_neg (by omega), if_neg (by omega)]) (by
      rw [hsd, Finset.sum_range_succ, Finset.sum_range_one]
      simpa using hx)
    have e : baryPt ℝ s.v (s.sd + 1) k (fun i => if i = 0 then x0 else if i = 1 then x1 else 0) = fun _ => (x1 : ℝ) / k := by
      unfold baryPt
      rw [hsd, Finset.sum_range_succ, Finset.sum_range_one, v0, v1]
      funext u
      simp
    rwa [e] at this
  have hone₁ : (fun _ => 1 : Fin 1 → ℝ) ∈ n₁ := by simpa using hpt 1 0 1 le_rfl rfl _ _ a2
  have hone₂ : (fun _ => 1 : Fin 1 → ℝ) ∈ n₂ := by simpa using hpt 2 0 2 (by norm_num) rfl _ _ b2
  have hzero₁ : (fun _ => 0 : Fin 1 → ℝ) ∈ n₁ := by simpa using hpt 1 1 0 le_rfl rfl _ _ a2
  have hzero₂ : (fun _ => 0 : Fin 1 → ℝ) ∈ n₂ := by simpa using hpt 2 2 0 (by norm_num) rfl _ _ b2
  have hhalf₂ : (fun _ => 1 / 2 : Fin 1 → ℝ) ∈ n₂ := by simpa using hpt 2 1 1 (by norm_num) rfl _ _ b2
  obtain ⟨i, hi⟩ := List.mem_iff_getElem?.1 hone₁
  obtain ⟨j, hj⟩ := List.mem_iff_getElem?.1 hone₂
  have hder : ∀ (n : List (Fin 1 → ℝ)), ∀ l ∈ (n.map pointEvaluation : List (Functional ℝ (Fin 1 → ℝ))), l.deriv = [] := by
    intro n l hl
    obtain ⟨x, -, rfl⟩ := List.mem_map.1 hl
    rfl
  have hcomp : Function.Injective fun _ : Unit => ([] : List ℕ) := fun _ _ _ => rfl
  obtain ⟨p, p1, -, -, -, p5, p6⟩ := restrict_part hD hs hv hcomp a4 (indices := [(i : ℤ)]) (by simp) (by simp) (by
    intro z hz
    rw [List.mem_singleton.1 hz]
    have := (List.getElem?_eq_some_iff.1 hi).1
    have h2 := a4.len
    simp only [List.length_map] at h2
    simp only
    omega) (hder n₁)
  obtain ⟨q, q1, -, -, -, q5, q6⟩ := restrict_part hD hs hv hcomp b4 (indices := [(j : ℤ)]) (by simp) (by simp) (by
    intro z hz
    rw [List.mem_singleton.1 hz]
    have := (List.getElem?_eq_some_iff.1 hj).1
    have h2 := b4.len
    simp only [List.length_map] at h2
    simp only
    omega) (hder n₂)
  -- the nodes are the evaluation at 1
  have hpn : ∀ l ∈ p.nodes, l = pointEvaluation (fun _ => 1) := by
    intro l hl
    obtain ⟨z, z1, z2⟩ := (p5 l).1 hl
    have : z = i := by exact_mod_cast List.mem_singleton.1 z1
    rw [this] at z2
    simp only [List.getElem?_map, hi] at z2
    exact (Option.some.inj z2).symm
  have hqn : ∀ l ∈ q.nodes, l = pointEvaluation (fun _ => 1) := by
    intro l hl
    obtain ⟨z, z1, z2⟩ := (q5 l).1 hl
    have : z = j := by exact_mod_cast List.mem_singleton.1 z1
    rw [this] at z2
    simp only [List.getElem?_map, hj] at z2
    exact (Option.some.inj z2).symm
  -- values of the functions at the other nodes
  have hother : ∀ (k : ℕ) (n : List (Fin 1 → ℝ)) (r : ℕ) (w : Unit → MvPolynomial (Fin 1) ℝ) (y : Fin 1 → ℝ), n[r]? = some (fun _ => 1) → y 0 ≠ 1 →
      w ∈ keptSpace (fun _ : Unit => ([] : List ℕ)) (polySpace 1 k) (n.map pointEvaluation) [(r : ℤ)] → y ∈ n → eval y (w ()) = 0 := by
    intro k n r w y hr hy hw hyn
    obtain ⟨z, hz⟩ := List.mem_iff_getElem?.1 hyn
    have := hw.2 z (pointEvaluation y) (by rw [List.getElem?_map, hz]; rfl) (by
      intro hc
      have : z = r := by exact_mod_cast List.mem_singleton.1 hc
      rw [this, hr] at hz
      exact hy (by rw [← Option.some.inj hz]))
    rwa [unit_scalar, point_eval_scalar] at this
  have hlin : ∀ p : MvPolynomial (Fin 1) ℝ, p.totalDegree ≤ 1 → eval (fun _ => 0) p = 0 → eval (fun _ => 1 / 2) p = 0 → p = 0 := by
    intro p hp h0 h1
    obtain ⟨g, b, hL⟩ := affine_of_degree p hp
    rw [hL] at h0 h1
    simp only [Fin.sum_univ_one, mul_zero, add_zero] at h0 h1
    refine MvPolynomial.funext fun x => ?_
    rw [hL, map_zero, Fin.sum_univ_one]
    have : g 0 = 0 := by linarith
    rw [this, h0, zero_mul, add_zero]
  have hdir : DirectSum ![keptSpace (fun _ : Unit => ([] : List ℕ)) (polySpace 1 1) (n₁.map pointEvaluation) [(i : ℤ)],
      keptSpace (fun _ : Unit => ([] : List ℕ)) (polySpace 1 2) (n₂.map pointEvaluation) [(j : ℤ)]] := by
    intro w hw h0
    have w0 := hw 0
    have w1 := hw 1
    simp only [Matrix.cons_val_zero, Matrix.cons_val_one] at w0 w1
    rw [Fin.sum_univ_two] at h0
    have e0 : w 0 = 0 := by
      funext u
      refine hlin _ (mem_polySpace.1 w0.1) (hother 1 n₁ i _ _ hi (by norm_num) w0 hzero₁) ?_
      have h2 := hother 2 n₂ j _ _ hj (by norm_num) w1 hhalf₂
      have h3 := congrArg (fun f : Unit → MvPolynomial (Fin 1) ℝ => eval (fun _ => 1 / 2) (f ())) h0
      simp only [Pi.add_apply, map_add, Pi.zero_apply, map_zero] at h3
      rw [h2, add_zero] at h3
      exact h3
    rw [e0, zero_add] at h0
    intro z
    fin_cases z
    · exact e0
    · exact h0
  refine ⟨_, _, p, q, i, j, _, _, a3, b3, p1, q1, p6, q6, hdir, ?_⟩
  rcases hr : nodalEnriched s (fun _ : Unit => ([] : List ℕ)) [p, q] with _ | r
  · rfl
  exfalso
  have hlist : [p, q] = List.ofFn (![p, q] : Fin 2 → NodalPart 1 Unit) := by simp [List.ofFn_succ]
  obtain ⟨ψ, c1, -, c3, -⟩ := p6.nodal
  obtain ⟨χ, d1, -, d3, -⟩ := q6.nodal
  have hp := p6.pos
  have hq := q6.pos
  have hsep := ((nodal_enriched_iff hD s hs hv _ hcomp (by norm_num) (![p, q] : Fin 2 → NodalPart 1 Unit)
    ![keptSpace (fun _ : Unit => ([] : List ℕ)) (polySpace 1 1) (n₁.map pointEvaluation) [(i : ℤ)],
      keptSpace (fun _ : Unit => ([] : List ℕ)) (polySpace 1 2) (n₂.map pointEvaluation) [(j : ℤ)]] (by
    intro z
    fin_cases z
    · exact p6
    · exact q6)).1 ⟨r, by rw [← hlist]; exact hr⟩).2
  obtain ⟨lp, hlp⟩ : ∃ l, p.nodes[0]? = some l := ⟨_, List.getElem?_eq_getElem (by rw [p6.len]; exact hp)⟩
  obtain ⟨lq, hlq⟩ : ∃ l, q.nodes[0]? = some l := ⟨_, List.getElem?_eq_getElem (by rw [q6.len]; exact hq)⟩
  have e1 := c3 0 lp hlp ⟨0, hp⟩
  have e2 := d3 0 lq hlq ⟨0, hq⟩
  rw [hpn lp (List.mem_of_getElem? hlp), unit_scalar, point_eval_scalar, if_pos rfl] at e1
  rw [hqn lq (List.mem_of_getElem? hlq), unit_scalar, point_eval_scalar, if_pos rfl] at e2
  have hw := hsep (ψ ⟨0, hp⟩ - χ ⟨0, hq⟩) ((sum_two _).2 ⟨_, c1 ⟨0, hp⟩, _, Submodule.neg_mem _ (d1 ⟨0, hq⟩), by rw [sub_eq_add_neg]⟩) (by
    intro l hl
    have : l = pointEvaluation (fun _ => 1) := by
      rw [← hlist] at hl
      simp only [List.flatMap_cons, List.flatMap_nil, List.append_nil, List.mem_append] at hl
      rcases hl with hl | hl
      · exact hpn l hl
      · exact hqn l hl
    rw [this, unit_scalar, point_eval_scalar, Pi.sub_apply, map_sub, e1, e2, sub_self])
  have h0 := hdir ![ψ ⟨0, hp⟩, - χ ⟨0, hq⟩] (by
    intro z
    fin_cases z
    · exact c1 _
    · exact Submodule.neg_mem _ (d1 _)) (by
    rw [Fin.sum_univ_two]
    simpa [sub_eq_add_neg] using hw) 0
  simp only [Matrix.cons_val_zero] at h0
  rw [h0] at e1
  simp at e1

end FIAT
