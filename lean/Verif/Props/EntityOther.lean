/-
C69: what `tabulate` on an entity and the facet moments of the integral variants compute on the simplices that are not UFC cells.
-/
import Verif.Props.EntityTables

namespace FIAT
open MvPolynomial
section
variable {D : ℕ}

/-- C69, the case in which the property fails: on a simplex that is not a UFC cell, `tabulate(order, pts, (d, e))` with `1 ≤ d < D` is
the table of the field at vertex number `e`, whatever the points are. -/
theorem interpolation_entity_other {Cp : Type} [Fintype Cp] {s : SimplexCell (Fin D → ℝ)} (hs : ProperSimplex ℝ s) {d e : ℕ} (hd : 1 ≤ d)
    (hdD : d < D) {t : List ℕ} (ht : HasEntity s.topo 0 e t) {N m : ℕ} {comp : Cp → List ℕ}
    {V : (Cp → MvPolynomial (Fin D) ℝ) → Prop}
    {nodes : List (Functional ℝ (Fin D → ℝ))} {el : PolySet ℝ (Fin D → ℝ) N m Cp} (hlen : nodes.length = m)
    (h : IsNodalC comp V nodes el) (pts : List (Fin d → ℝ)) (order : ℕ) :
    ∃ res, tabulateOn false s el order d e pts = some res ∧ Reproduces comp V nodes res order (pts.map fun _ => s.v e) := by
  unfold tabulateOn
  rw [entity_transform_other hs hd hdD ht, Option.bind_some]
  exact nodal_reproduces hlen h _ order

/-- A vertex of a simplex is not on the facet opposite to it, and the normal component of `x - v` is not zero on that facet. -/
theorem opposite_flux (hD : 1 ≤ D) {s : SimplexCell (Fin D → ℝ)} (hs : ProperSimplex ℝ s) {nrm : ℕ → Option (Fin D → ℝ)}
    (hn : FacetNormals s nrm) {e i : ℕ} {t : List ℕ} (ht : HasEntity s.topo (D - 1) e t) (hi : i < D + 1) (hit : i ∉ t) {n : Fin D → ℝ}
    (h : nrm e = some n) : (∀ x, OnEntity s t x → ∑ j, n j * (x j - s.v i j) ≠ 0) ∧ ¬ OnEntity s t (s.v i) := by
  have h0 : ∀ x, OnEntity s t x → ∑ j, n j * (x j - s.v i j) ≠ 0 := by
    intro x hx
    obtain ⟨i', h1⟩ := facet_opposite hD hs ht
    obtain rfl : i = i' := by
      by_contra hc
      exact hit ((h1 i).2 ⟨hi, hc⟩)
    obtain ⟨g, b, hb⟩ := baryForms_exist _ (proper_independent hs)
    obtain ⟨n', c, h2, h3, h4⟩ := facet_normal hD hn hb ht h1
    rw [h, Option.some.injEq] at h2
    have h5 := (onEntity_facet hb (hs.2.1.entity _ _ _ ht).1 h1 x).1 hx
    have h6 := hb.at_vertex i' i'
    rw [if_pos rfl] at h6
    rw [eval_linForm] at h5 h6
    have h7 : ∑ j, n j * (x j - s.v i' j) = c * ((∑ j, g i' j * x j) - ∑ j, g i' j * s.v i' j) := by
      rw [h2, h4, ← Finset.sum_sub_distrib, Finset.mul_sum]
      exact Finset.sum_congr rfl fun j _ => by rw [Pi.smul_apply, smul_eq_mul]; ring
    rw [h7]
    refine mul_ne_zero h3 ?_
    intro h8
    linarith
  refine ⟨h0, fun hc => h0 _ hc ?_⟩
  simp

theorem fillDict_const {P ι α : Type} [DecidableEq P] (x : P) (key : ι → P) (val : ι → α) (L : List ι) (hL : ∀ q ∈ L, key q = x) (q : ι)
    (hq : key q = x) : fillDict (L ++ [q]) key val = [(x, val q)] := by
  have main : ∀ L : List ι, (∀ q ∈ L, key q = x) → fillDict L key val = [] ∨ ∃ a, fillDict L key val = [(x, a)] := by
    intro L
    induction L using List.reverseRecOn with
    | nil => intro _; exact Or.inl rfl
    | append_singleton L q ih =>
      intro h
      right
      unfold fillDict at ih ⊢
      rw [List.foldl_append, List.foldl_cons, List.foldl_nil, h q (by simp)]
      rcases ih (fun q hq => h q (by simp [hq])) with h1 | ⟨a, h1⟩
      · rw [h1]; exact ⟨_, rfl⟩
      · rw [h1]; exact ⟨val q, by simp [Dict.put]⟩
  have := main L hL
  unfold fillDict at this ⊢
  rw [List.foldl_append, List.foldl_cons, List.foldl_nil, hq]
  rcases this with h1 | ⟨a, h1⟩
  · rw [h1]; rfl
  · rw [h1]; simp [Dict.put]

/-- C69: on a simplex that is not a UFC cell, the facet moments against the scaled normal (the facet dofs of the integral variants of
Raviart-Thomas and BDM) of facet `f` see a field only through its value at vertex number `f`. -/
theorem facet_moments_other {s : SimplexCell (Fin D → ℝ)} (hs : ProperSimplex ℝ s) (hD : 2 ≤ D) {nrm : ℕ → Option (Fin D → ℝ)}
    (Q : QRule ℝ (Fin (D - 1) → ℝ)) {m : ℕ} (phis : Fin m → Unit → ℕ → ℝ) {f : ℕ} {t : List ℕ} (ht : HasEntity s.topo 0 f t)
    {n : Fin D → ℝ} (hf : nrm f = some n) :
    ∃ ls, scaledNormalMoments false s nrm Q phis f = some ls ∧ ls.length = m ∧
      ∀ l ∈ ls, ∃ c : ℝ, ∀ w, l.onField (fieldOf w) = c * ∑ j, n j * eval (s.v f) (w j) := by
  unfold scaledNormalMoments
  rw [entity_transform_other hs (by omega) (by omega) ht, Option.bind_some, hf, Option.map_some]
  refine ⟨_, rfl, by simp, fun l hl => ?_⟩
  obtain ⟨i, -, rfl⟩ := List.mem_map.1 hl
  have hkey : ∀ q ∈ zipRule (Q.pts.map fun _ => s.v f) Q.wts (phis i ()), q.1 = s.v f := by
    intro q hq
    obtain ⟨r, hr, rfl⟩ := List.mem_map.1 hq
    have h0 := List.fst_mem_of_mem_zipIdx hr
    have h1 : r.1.1 ∈ Q.pts.map fun _ => s.v f := (List.of_mem_zip (a := r.1.1) (b := r.1.2) h0).1
    obtain ⟨y, -, hy⟩ := List.mem_map.1 h1
    exact hy.symm
  generalize zipRule (Q.pts.map fun _ => s.v f) Q.wts (phis i ()) = L at hkey
  rcases List.eq_nil_or_concat L with rfl | ⟨L, q, rfl⟩
  · exact ⟨0, fun w => by simp [integralMomentOfDirection, fillDict, Functional.onField, Functional.apply]⟩
  · refine ⟨q.2.1 * q.2.2, fun w => ?_⟩
    have e : integralMomentOfDirection D (vecNat n) (L ++ [q]) = integralMomentOfDirection D (vecNat n) [q] := by
      unfold integralMomentOfDirection
      rw [fillDict_const (s.v f) _ _ L (fun q hq => hkey q (by simp [hq])) q (hkey q (by simp)),
        show [q] = [] ++ [q] from rfl, fillDict_const (s.v f) _ _ [] (fun q hq => by simp at hq) q (hkey q (by simp))]
    rw [List.concat_eq_append, e, moment_direction_field w n [q] (by simp)]
    simp [quadSum, hkey q (by simp), mul_assoc]

/-- C69: so on such a cell, when facet `f` is opposite to vertex `f`, there is a Raviart-Thomas field of lowest degree all of whose
moments on facet `f` vanish although its normal component is nonzero at every point of facet `f`. -/
theorem facet_moments_other_wrong {s : SimplexCell (Fin D → ℝ)} (hs : ProperSimplex ℝ s) (hD : 2 ≤ D) {nrm : ℕ → Option (Fin D → ℝ)}
    (hn : FacetNormals s nrm) (Q : QRule ℝ (Fin (D - 1) → ℝ)) {m : ℕ} (phis : Fin m → Unit → ℕ → ℝ) {f : ℕ} (hf : f < D + 1) {t : List ℕ}
    (ht : HasEntity s.topo (D - 1) f t) (hft : f ∉ t) :
    ∃ ls n w, scaledNormalMoments false s nrm Q phis f = some ls ∧ ls.length = m ∧ nrm f = some n ∧ IsRT 0 w ∧
      (∀ l ∈ ls, l.onField (fieldOf w) = 0) ∧ ∀ x, OnEntity s t x → ∑ j, n j * eval x (w j) ≠ 0 := by
  obtain ⟨n, h1, -⟩ := hn f t ht
  obtain ⟨d, e, t0, h2, h3⟩ := hs.2.1.all {f} (by simp) (by simpa [hs.1] using hf)
  have h4 : HasEntity s.topo 0 f t0 := by
    obtain ⟨q1, q2, -⟩ := hs.2.1.entity _ _ _ h2
    have q4 : t0.length = 1 := by rw [← List.toFinset_card_of_nodup q1, h3, Finset.card_singleton]
    obtain rfl : d = 0 := by omega
    have q5 := hs.2.1.vertex _ _ h2
    have q6 : e = f := by
      rw [q5] at h3
      simpa using h3
    rwa [q6] at h2
  obtain ⟨ls, l1, l2, l3⟩ := facet_moments_other hs hD Q phis h4 h1
  refine ⟨ls, n, fun j => C (-s.v f j) + X j * 1, l1, l2, h1, ⟨fun j => C (-s.v f j), 1, fun j => by simp, by simp, fun j => rfl⟩,
    fun l hl => ?_, fun x hx => ?_⟩
  · obtain ⟨c, hc⟩ := l3 l hl
    rw [hc]
    simp
  · have := (opposite_flux (by omega) hs hn ht hf hft h1).1 x hx
    convert this using 3 with j
    simp
    ring

/-- C69 for Raviart-Thomas elements on UFC simplices: interpolation by the dofs and the tables of `tabulate`, on the cell and on every
entity, reproduces every field of the space and its derivatives. -/
theorem raviart_thomas_interpolation (hD : D = 2 ∨ D = 3) (s : SimplexCell (Fin D → ℝ)) (hs : ProperSimplex ℝ s) (hnum : NumberedSimplex s)
    (ho : 0 < orientation fun i : Fin (D + 1) => s.v i) {gj : ℕ → ℕ → List ℝ} (hgj : NodesOK gj)
    {nrm : ℕ → Option (Fin D → ℝ)} (hn : FacetNormals s nrm) (degree : ℕ)
    (svd : List (Fin D → Fin ((degree + 1 + D).choose D) → ℝ) → List ℝ × List (Fin D → Fin ((degree + 1 + D).choose D) → ℝ))
    (hsvd : ∀ A B, rtRows gj degree s = some (A, B) → SvdOK svd (A ++ B))
    (T : DigitTable) (variant : Option (List Char)) (v : DualVariant) (hv : dualVariant T variant degree = some v) :
    ∃ m el nodes ids, raviartThomas gj degree svd T s nrm variant = some (⟨m, el⟩, nodes, ids) ∧
      (∀ pts order, ∃ res, tabulateCell true s el order pts = some res ∧
        Reproduces (fun j : Fin D => [(j : ℕ)]) (IsRT degree) nodes res order pts) ∧
      ∀ d e (τ : Fin (d + 1) → ℕ), d < D → HasEntity s.topo d e (List.ofFn τ) → ∀ (pts : List (Fin d → ℝ)) order,
        ∃ res, tabulateOn true s el order d e pts = some res ∧
          Reproduces (fun j : Fin D => [(j : ℕ)]) (IsRT degree) nodes res order (pts.map (entMap fun j => s.v (τ j))) := by
  obtain ⟨m, el, nodes, ids, h1, -, h2, -, -, h3⟩ := raviart_thomas_spec hD s hs hnum ho hgj hn degree svd hsvd T variant v hv
  exact ⟨m, el, nodes, ids, h1, fun pts order => interpolation_cell (by omega) h2 h3.toC pts order,
    fun d e τ hd ht pts order => interpolation_entity hs hd τ ht h2 h3.toC pts order⟩

/-- C69 for Nedelec elements on UFC simplices. -/
theorem nedelec_interpolation (hD : D = 2 ∨ D = 3) (s : SimplexCell (Fin D → ℝ)) (hs : ProperSimplex ℝ s) (hnum : NumberedSimplex s)
    (ho : 0 < orientation fun i : Fin (D + 1) => s.v i) {gj : ℕ → ℕ → List ℝ} (hgj : NodesOK gj) (degree : ℕ)
    (svd : SvdFun) (hsvd : ∀ A B, nedRows gj degree D s = some (A, B) → SvdOK (svd D _) (A ++ B))
    (T : DigitTable) (variant : Option (List Char)) (v : DualVariant) (hv : dualVariant T variant degree = some v) :
    ∃ m el nodes ids, nedelec gj degree svd T s variant = some (⟨m, el⟩, nodes, ids) ∧
      (∀ pts order, ∃ res, tabulateCell true s el order pts = some res ∧
        Reproduces (fun j : Fin D => [(j : ℕ)]) (IsNed degree) nodes res order pts) ∧
      ∀ d e (τ : Fin (d + 1) → ℕ), d < D → HasEntity s.topo d e (List.ofFn τ) → ∀ (pts : List (Fin d → ℝ)) order,
        ∃ res, tabulateOn true s el order d e pts = some res ∧
          Reproduces (fun j : Fin D => [(j : ℕ)]) (IsNed degree) nodes res order (pts.map (entMap fun j => s.v (τ j))) := by
  obtain ⟨m, el, nodes, ids, h1, -, h2, -, -, h3⟩ := nedelec_spec hD s hs hnum ho hgj degree svd hsvd T variant v hv
  exact ⟨m, el, nodes, ids, h1, fun pts order => interpolation_cell (by omega) h2 h3.toC pts order,
    fun d e τ hd ht pts order => interpolation_entity hs hd τ ht h2 h3.toC pts order⟩

/-- The hypotheses hold on the UFC triangle. -/
example (DT : DigitTable) : ∃ gj m el nodes ids res T, NodesOK gj ∧ raviartThomas (D := 2) gj 0 someSvd DT tri
    (ufcScaledNormal tri triLengths) none = some (⟨m, el⟩, nodes, ids) ∧ tabulateOn true tri el 0 1 0 [![1 / 2]] = some res ∧
    Dict.get? res [0, 0] = some T ∧ ∑ i : Fin m, dofOf nodes (fieldC (fun j : Fin 2 => [(j : ℕ)]) fun j => X j) i * T i 0 0 = 1 / 2 := by
  obtain ⟨gj, hgj⟩ := nodesOK_exists
  obtain ⟨m, el, nodes, ids, h1, -, h3⟩ := raviart_thomas_interpolation (Or.inl rfl) _ (proper_ufcTriangle (K := ℝ)) numbered_ufcTriangle
    tri_oriented hgj (ufc_triangle_normals _ proper_ufcTriangle triLengths) 0 someSvd (fun A B h => rt_svd_example hgj A B h)
    DT none .point rfl
  obtain ⟨res, r1, r2, r3⟩ := h3 1 0 ![1, 2] (by omega) ⟨_, rfl, rfl⟩ [![1 / 2]] 0
  obtain ⟨T, hT⟩ := Option.isSome_iff_exists.1 (Dict.get?_isSome_iff.2 ((r2 [0, 0]).2 (by simp)))
  refine ⟨gj, m, el, nodes, ids, res, T, hgj, h1, r1, hT, ?_⟩
  rw [r3 _ T hT (fun j => X j) ⟨fun _ => 0, 1, by simp, by simp, by simp⟩ 0 0 _ rfl,
    show ([0, 0] : List ℕ) = List.replicate 2 0 from rfl, iterDeriv_zero, eval_X]
  simp [entMap, SimplexCell.v, CellData.toSimplex, ufcTriangle]
  norm_num

example (DT : DigitTable) : ∃ gj m el nodes ids res, NodesOK gj ∧ nedelec (D := 2) gj 0 someSvdFun DT tri none = some (⟨m, el⟩, nodes, ids) ∧
    tabulateOn true tri el 1 1 2 [![1 / 3]] = some res := by
  obtain ⟨gj, hgj⟩ := nodesOK_exists
  obtain ⟨m, el, nodes, ids, h1, -, h3⟩ := nedelec_interpolation (Or.inl rfl) _ (proper_ufcTriangle (K := ℝ)) numbered_ufcTriangle
    tri_oriented hgj 0 someSvdFun (fun A B h => ned_svd_example hgj A B h) DT none .point rfl
  obtain ⟨res, r1, -⟩ := h3 1 2 ![0, 1] (by omega) ⟨_, rfl, rfl⟩ [![1 / 3]] 1
  exact ⟨gj, m, el, nodes, ids, res, hgj, h1, r1⟩

/-- Quadratic Lagrange functions over the square: the tables on the common edge agree when the three common dofs agree. -/
example : ∃ el ids, lagrangeElement tri 2 = some (el, ids) ∧ ∀ a a' : ℕ → ℝ,
    (∀ d1 e1 e1' t1 t1' l l', HasEntity tri.topo d1 e1 t1 → (∀ i ∈ t1, i ∈ [1, 2]) → HasEntity tri.topo d1 e1' t1' →
      SharedEntity id t1 (· + 1) t1' → ids.at? d1 e1 = some l → ids.at? d1 e1' = some l' → l.map a = l'.map a') →
    ∃ res res' T T', tabulateOn true tri el 0 1 0 [![1 / 3]] = some res ∧ tabulateOn true tri el 0 1 2 [![1 / 3]] = some res' ∧
      Dict.get? res [0, 0] = some T ∧ Dict.get? res' [0, 0] = some T' ∧
      ∑ i : Fin ((2 + 2).choose 2), a i * T i () 0 = ∑ i : Fin ((2 + 2).choose 2), a' i * T' i () 0 := by
  obtain ⟨el, ids, el', ids', h1, h2, h3⟩ := lagrange_tables_agree (Or.inr (Or.inl rfl)) (proper_ufcTriangle (K := ℝ)) proper_ufcTriangle
    (fun h => by omega) (fun h => by omega) 2 (by omega) square_left square_right
  rw [h1, Option.some.injEq, Prod.mk.injEq] at h2
  obtain ⟨rfl, rfl⟩ := h2
  refine ⟨el, ids, h1, fun a a' h => ?_⟩
  obtain ⟨res, res', T, T', r1, r2, r3, r4, r5⟩ := h3 1 0 2 _ _ (by omega) square_edges.1 square_edges.2.1 square_edges.2.2 a a' h [![1 / 3]]
  exact ⟨res, res', T, T', r1, r2, r3, r4, r5 0 (by simp)⟩

example (k : ℕ) (hk : 1 ≤ k) : ∃ el ids res, lagrangeElement tet k = some (el, ids) ∧ tabulateOn true tet el 1 2 0 [![1 / 3, 1 / 3]] = some res := by
  obtain ⟨el, ids, h1, -, h3⟩ := lagrange_partition_of_unity (Or.inr (Or.inr rfl)) _ (proper_ufcTetrahedron (K := ℝ)) (fun h => by omega) k hk
  obtain ⟨res, r1, -⟩ := h3 2 0 _ ⟨_, rfl, rfl⟩ (by omega) [![1 / 3, 1 / 3]] 1
  exact ⟨el, ids, res, h1, r1⟩

/-- The hypotheses of `facet_moments_other_wrong` hold on the default triangle, for every facet. -/
example (Q : QRule ℝ (Fin (2 - 1) → ℝ)) {m : ℕ} (phis : Fin m → Unit → ℕ → ℝ) : ∀ f < 3, ∃ nrm ls n w t,
    FacetNormals ((defaultTriangle : CellData ℝ).toSimplex 2) nrm ∧ HasEntity ((defaultTriangle : CellData ℝ).toSimplex 2).topo 1 f t ∧
      scaledNormalMoments false ((defaultTriangle : CellData ℝ).toSimplex 2) nrm Q phis f = some ls ∧ ls.length = m ∧ nrm f = some n ∧ IsRT 0 w ∧
      (∀ l ∈ ls, l.onField (fieldOf w) = 0) ∧
      ∀ x, OnEntity ((defaultTriangle : CellData ℝ).toSimplex 2) t x → ∑ j, n j * eval x (w j) ≠ 0 := by
  intro f hf
  have hn := ufc_triangle_normals _ (proper_defaultTriangle (K := ℝ)) fun _ => [2]
  have key : ∃ t, HasEntity ((defaultTriangle : CellData ℝ).toSimplex 2).topo 1 f t ∧ f ∉ t := by
    interval_cases f
    · exact ⟨_, ⟨_, rfl, rfl⟩, by simp⟩
    · exact ⟨_, ⟨_, rfl, rfl⟩, by simp⟩
    · exact ⟨_, ⟨_, rfl, rfl⟩, by simp⟩
  obtain ⟨t, t1, t2⟩ := key
  obtain ⟨ls, n, w, h⟩ := facet_moments_other_wrong (proper_defaultTriangle (K := ℝ)) (le_refl 2) hn Q phis (f := f) hf t1 t2
  exact ⟨_, ls, n, w, t, hn, t1, h⟩

/-- Linear Lagrange functions on the default triangle: the table on edge 0 is the table at vertex 0, which is not on edge 0. -/
example : ∃ el ids nodes res, lagrangeElement ((defaultTriangle : CellData ℝ).toSimplex 2) 1 = some (el, ids) ∧
    tabulateOn false ((defaultTriangle : CellData ℝ).toSimplex 2) el 0 1 0 [![0]] = some res ∧
    Reproduces (fun _ : Unit => ([] : List ℕ)) (fun w => (w ()).totalDegree ≤ 1) nodes res 0
      [((defaultTriangle : CellData ℝ).toSimplex 2).v 0] := by
  obtain ⟨el, ids, nodes, h1, -, h3, h4⟩ := lagrange_nodal (Or.inr (Or.inl rfl)) _ (proper_defaultTriangle (K := ℝ)) (fun h => by omega) 1 le_rfl
  obtain ⟨res, r1, r2⟩ := interpolation_entity_other (proper_defaultTriangle (K := ℝ)) (d := 1) (e := 0) le_rfl (by omega) ⟨_, rfl, rfl⟩ h3 h4 [![0]] 0
  exact ⟨el, ids, _, res, h1, r1, r2⟩

end
end FIAT
