/-
C82: the functions of the trace element are single-valued on the facets of a mesh.
-/
import Verif.Props.HDivTrace
import Verif.Props.ConformExample

namespace FIAT

section
variable {n : ℕ}

/-- The element on the reference facet: `tabulate(0, points)` has one key, with one row for each of the functions `ψ`, and the nodes are
the evaluations at the points of the element, for which the functions are nodal. -/
structure IsFacetElement (el : FacetElement (Fin n → ℝ) ℝ) (ψ : ℕ → (Fin n → ℝ) → ℝ) : Prop where
  tab : ∀ points, ∃ key, el.tab 0 points = [(key, (List.range el.points.length).map fun q => points.map (ψ q))]
  nodal : ∀ i y, el.points[i]? = some y → ∀ q, ψ q y = if q = i then 1 else 0

/-- The value of the function with coefficients `c` at the point `y` of the reference facet of facet `e`, from `tabulate`. -/
def TraceValue {Q : Type} (E : TraceElement ℕ (Fin n → ℝ) Q ℝ) (c : ℕ → ℝ) (e : ℕ) (y : Fin n → ℝ) (r : ℝ) : Prop :=
  ∃ tab rows, traceTabulateEntity E 0 [y] (n, e) = some tab ∧ Dict.get? tab (List.replicate E.sd 0) = some (.arr rows) ∧
    rows.length = E.nodes.length ∧ r = ∑ i ∈ Finset.range E.nodes.length, c i * (rows.getD i []).getD 0 0

theorem traceInit_sd {δ P Q : Type} [LinearOrder δ] {sd : ℕ} {topo : Topology δ} {subDim : δ → ℕ} {mk : δ → Option (FacetElement P ℝ)}
    {transform : δ → ℕ → P → Q} {E : TraceElement δ P Q ℝ} (h : traceInit sd topo subDim mk transform = some E) : E.sd = sd := by
  unfold traceInit at h
  split_ifs at h
  obtain ⟨dg, -, h2⟩ := Option.bind_eq_some_iff.1 h
  split_ifs at h2
  rw [Option.some.injEq] at h2
  rw [← h2]

/-- The values on a facet are those of the facet element with the coefficients of the dofs of the facet. -/
theorem traceValue_iff {Q : Type} {topo : Topology ℕ} (ht : topo.WF) {mk : ℕ → Option (FacetElement (Fin n → ℝ) ℝ)}
    {transform : ℕ → ℕ → (Fin n → ℝ) → Q} {E : TraceElement ℕ (Fin n → ℝ) Q ℝ} (hnum : FacetsNumbered topo id n)
    (h : traceInit (n + 1) topo id mk transform = some E) {el : FacetElement (Fin n → ℝ) ℝ} (hmk : mk n = some el)
    {ψ : ℕ → (Fin n → ℝ) → ℝ} (hel : IsFacetElement el ψ) {e : ℕ} {t : List ℕ} (he : HasEntity topo n e t) (c : ℕ → ℝ) :
    ∃ l, E.ids.at? n e = some l ∧ l.length = el.points.length ∧
      ∀ y r, TraceValue E c e y r ↔ r = ∑ q ∈ Finset.range l.length, c (l.getD q 0) * ψ q y := by
  obtain ⟨p1, p2, p3, p4⟩ := trace_dofs ht hnum h
  obtain ⟨l, hl⟩ := Option.isSome_iff_exists.1 ((p2 n e).2 ⟨t, he⟩)
  have hlen : l.length = el.points.length := by
    have := congrArg List.length (p4 n e l el hl rfl hmk)
    simpa using this
  have hsd := traceInit_sd h
  have hnd : l.Nodup ∧ ∀ i ∈ l, i < E.nodes.length := p1.1 n e l hl
  refine ⟨l, hl, hlen, fun y r => ?_⟩
  obtain ⟨key, hkey⟩ := hel.tab [y]
  obtain ⟨l', tab, hl', htab, h1, h2, rows, h3, h4, h5, h6⟩ := trace_tabulate_facet ht hnum h n e t he rfl el hmk [y] key _ hkey (by simp) 0
  rw [hl, Option.some.injEq] at hl'
  subst hl'
  have hsum : ∑ i ∈ Finset.range E.nodes.length, c i * (rows.getD i []).getD 0 0 = ∑ q ∈ Finset.range l.length, c (l.getD q 0) * ψ q y := by
    have hsub : (Finset.range l.length).image (fun q => l.getD q 0) ⊆ Finset.range E.nodes.length := by
      intro i hi
      obtain ⟨q, hq, rfl⟩ := Finset.mem_image.1 hi
      rw [List.getD_eq_getElem _ _ (Finset.mem_range.1 hq)]
      exact Finset.mem_range.2 (hnd.2 _ (List.getElem_mem _))
    rw [← Finset.sum_subset hsub, Finset.sum_image]
    · refine Finset.sum_congr rfl fun q hq => ?_
      have hq' := Finset.mem_range.1 hq
      have h7 := h5 q (l.getD q 0) (by rw [List.getD_eq_getElem _ _ hq', List.getElem?_eq_getElem])
      rw [List.getD_eq_getElem?_getD (l := rows), h7, List.getElem?_map, List.getElem?_range (by omega)]
      rfl
    · intro a ha b hb hab
      simp only [Finset.coe_range, Set.mem_Iio] at ha hb
      simp only [List.getD_eq_getElem _ _ ha, List.getD_eq_getElem _ _ hb] at hab
      exact (List.Nodup.getElem_inj_iff hnd.1).1 hab
    · intro i hi hni
      have : i ∉ l := fun hm => by
        obtain ⟨q, hq, rfl⟩ := List.getElem_of_mem hm
        exact hni (Finset.mem_image.2 ⟨q, Finset.mem_range.2 hq, List.getD_eq_getElem _ _ hq⟩)
      rw [List.getD_eq_getElem?_getD (l := rows), h6 i (Finset.mem_range.1 hi) this]
      simp
  constructor
  · rintro ⟨tab', rows', t1, t2, -, rfl⟩
    rw [htab, Option.some.injEq] at t1
    subst t1
    rw [hsd, h3] at t2
    simp only [Option.some.injEq, TraceVal.arr.injEq] at t2
    subst t2
    exact hsum
  · rintro rfl
    exact ⟨tab, rows, htab, by rw [hsd]; exact h3, h4, hsum.symm⟩

variable {X : ℕ → Fin (n + 1) → ℝ} {s s' : SimplexCell (Fin (n + 1) → ℝ)} {A A' : Matrix (Fin (n + 1)) (Fin (n + 1)) ℝ}
  {b b' : Fin (n + 1) → ℝ} {g g' : ℕ → ℕ}

/-- C82: the coefficients of the dofs of a shared facet are equal exactly when the values on the facet from the two sides are. -/
theorem trace_single_valued (hs : ProperSimplex ℝ s) (hs' : ProperSimplex ℝ s') (hm : InMesh X s A b g) (hm' : InMesh X s' A' b' g')
    (hnum : FacetsNumbered s.topo id n) (hnum' : FacetsNumbered s'.topo id n)
    {mk mk' : ℕ → Option (FacetElement (Fin n → ℝ) ℝ)} {transform transform' : ℕ → ℕ → (Fin n → ℝ) → Fin (n + 1) → ℝ}
    {E E' : TraceElement ℕ (Fin n → ℝ) (Fin (n + 1) → ℝ) ℝ} (h : traceInit (n + 1) s.topo id mk transform = some E)
    (h' : traceInit (n + 1) s'.topo id mk' transform' = some E') {el : FacetElement (Fin n → ℝ) ℝ} (hmk : mk n = some el)
    (hmk' : mk' n = some el) {ψ : ℕ → (Fin n → ℝ) → ℝ} (hel : IsFacetElement el ψ) {e e' : ℕ} {τ τ' : Fin (n + 1) → ℕ}
    (he : HasEntity s.topo n e (List.ofFn τ)) (he' : HasEntity s'.topo n e' (List.ofFn τ'))
    (htr : transform n e = entityTransform (ufcVerts ℝ n) fun j => s.v (τ j))
    (htr' : transform' n e' = entityTransform (ufcVerts ℝ n) fun j => s'.v (τ' j))
    (hsh : SharedEntity g (List.ofFn τ) g' (List.ofFn τ')) (c c' : ℕ → ℝ) :
    ∃ l l', E.ids.at? n e = some l ∧ E'.ids.at? n e' = some l' ∧
      (l.map c = l'.map c' ↔ ∀ y y', cellMap A b (transform n e y) = cellMap A' b' (transform' n e' y') →
        ∃ r, TraceValue E c e y r ∧ TraceValue E' c' e' y' r) := by
  obtain ⟨l, hl, hlen, hv⟩ := traceValue_iff hs.2.1.wf hnum h hmk hel he c
  obtain ⟨l', hl', hlen', hv'⟩ := traceValue_iff hs'.2.1.wf hnum' h' hmk' hel he' c'
  refine ⟨l, l', hl, hl', ?_⟩
  obtain ⟨-, hg⟩ := shared_tuple hs hs' hm hm' he he' hsh
  have hent := hs.2.1.entity _ _ _ he
  have hent' := hs'.2.1.entity _ _ _ he'
  have hτ : Function.Injective τ := List.nodup_ofFn.1 hent.1
  have hlt : ∀ j, τ j < n + 1 + 1 := fun j => by
    have := hent.2.2 (τ j) (List.mem_ofFn.2 ⟨j, rfl⟩)
    rwa [hs.1] at this
  have hlt' : ∀ j, τ' j < n + 1 + 1 := fun j => by
    have := hent'.2.2 (τ' j) (List.mem_ofFn.2 ⟨j, rfl⟩)
    rwa [hs'.1] at this
  have hpts : ∀ y y', cellMap A b (transform n e y) = cellMap A' b' (transform' n e' y') ↔ y = y' := fun y y' => by
    rw [htr, htr', ← entMap_eq, ← entMap_eq]
    exact shared_points hs hm hτ hlt (shared_verts hm hm' hlt hlt' hg) y y'
  simp only [hpts, hv, hv', forall_eq', exists_eq_left]
  constructor
  · intro hc y
    rw [hlen, hlen']
    refine Finset.sum_congr rfl fun q hq => ?_
    have hq' := Finset.mem_range.1 hq
    have := congrArg (fun L : List ℝ => L[q]?) hc
    simp only [List.getElem?_map] at this
    rw [List.getElem?_eq_getElem (by omega), List.getElem?_eq_getElem (by omega)] at this
    simp only [Option.map_some, Option.some.injEq] at this
    rw [List.getD_eq_getElem _ _ (by omega), List.getD_eq_getElem _ _ (by omega), this]
  · intro hc
    apply List.ext_getElem (by simp; omega)
    intro q h1 h2
    rw [List.length_map] at h1 h2
    have hq : q < el.points.length := by omega
    have := hc el.points[q]
    have hψ := hel.nodal q _ (List.getElem?_eq_getElem hq)
    simp only [hψ, mul_ite, mul_one, mul_zero] at this
    rw [Finset.sum_ite_eq' , Finset.sum_ite_eq', if_pos (Finset.mem_range.2 h1), if_pos (Finset.mem_range.2 h2),
      List.getD_eq_getElem _ _ h1, List.getD_eq_getElem _ _ h2] at this
    rw [List.getElem_map, List.getElem_map, this]

end

/-! ### Examples -/

/-- The discontinuous Lagrange element with nodes `x` on the reference interval. -/
noncomputable def lineEl {m : ℕ} (x : Fin m → ℝ) : FacetElement (Fin 1 → ℝ) ℝ where
  points := List.ofFn fun i => fun _ => x i
  tab := fun _ ys => [([0], (List.range m).map fun q =>
    ys.map fun y => if h : q < m then (Lagrange.basis Finset.univ x ⟨q, h⟩).eval (y 0) else 0)]

theorem lineEl_spec {m : ℕ} {x : Fin m → ℝ} (hx : Function.Injective x) :
    IsFacetElement (lineEl x) fun q y => if h : q < m then (Lagrange.basis Finset.univ x ⟨q, h⟩).eval (y 0) else 0 := by
  refine ⟨fun points => ⟨[0], ?_⟩, fun i y hy q => ?_⟩
  · simp [lineEl]
  · have hy' : (List.ofFn fun i : Fin m => fun _ : Fin 1 => x i)[i]? = some y := hy
    rw [List.getElem?_ofFn] at hy'
    split_ifs at hy' with hi
    rw [Option.some.injEq] at hy'
    subst hy'
    by_cases hq : q < m
    · rw [dif_pos hq]
      by_cases hqi : q = i
      · subst hqi
        rw [if_pos rfl]
        exact Lagrange.eval_basis_self hx.injOn (Finset.mem_univ _)
      · rw [if_neg hqi]
        exact Lagrange.eval_basis_of_ne (fun h => hqi (congrArg Fin.val h)) (Finset.mem_univ _)
    · rw [dif_neg hq, if_neg (by omega)]

theorem tri_facets_numbered : FacetsNumbered tri.topo id 1 := by
  intro d es hes hd e
  have : d = 1 := hd
  subst this
  cases hes
  simp [Dict.keys]
  omega

/-- The trace element on the two triangles of the unit square, with any nodes on the facets. -/
example {m : ℕ} {x : Fin m → ℝ} (hx : Function.Injective x) (c c' : ℕ → ℝ) : ∃ E l l', traceTriangle (lineEl x) = some E ∧
    E.ids.at? 1 0 = some l ∧ E.ids.at? 1 2 = some l' ∧ l.length = m ∧
    (l.map c = l'.map c' ↔ ∀ y y', cellMap 1 0 (entityTransform (ufcVerts ℝ 1) (fun j => tri.v (![1, 2] j)) y) =
      cellMap !![-1, 0; 1, 1] ![1, 0] (entityTransform (ufcVerts ℝ 1) (fun j => tri.v (![0, 1] j)) y') →
      ∃ r, TraceValue E c 0 y r ∧ TraceValue E c' 2 y' r) := by
  obtain ⟨E, hE, h1, h2, h3⟩ := trace_triangle_dofs (K := ℝ) (lineEl x)
  have key := fun t0 t2 => trace_single_valued (transform := fun _ i => (facetTransform (n := 1) tri i).getD fun _ => 0)
    (transform' := fun _ i => (facetTransform (n := 1) tri i).getD fun _ => 0)
    proper_ufcTriangle proper_ufcTriangle square_left square_right tri_facets_numbered tri_facets_numbered hE hE rfl rfl (lineEl_spec hx)
    (e := 0) (e' := 2) (τ := ![1, 2]) (τ' := ![0, 1]) square_edges.1 square_edges.2.1 t0 t2 square_edges.2.2 c c'
  have t0 : (facetTransform (n := 1) tri 0).getD (fun _ => 0) = entityTransform (ufcVerts ℝ 1) fun j => tri.v (![1, 2] j) := by
    have h0 : facetTransform (n := 1) tri 0 = some _ := facet_transform_triangle (K := ℝ) 0
    rw [h0, Option.getD_some]
    congr 1
    funext j l
    fin_cases j <;> fin_cases l <;> rfl
  have t2 : (facetTransform (n := 1) tri 2).getD (fun _ => 0) = entityTransform (ufcVerts ℝ 1) fun j => tri.v (![0, 1] j) := by
    have h0 : facetTransform (n := 1) tri 2 = some _ := facet_transform_triangle (K := ℝ) 2
    rw [h0, Option.getD_some]
    congr 1
    funext j l
    fin_cases j <;> fin_cases l <;> rfl
  obtain ⟨l, l', hl, hl', h⟩ := key t0 t2
  refine ⟨E, l, l', hE, hl, hl', by rw [h3 _ _ _ hl, if_pos rfl]; simp [lineEl], ?_⟩
  rw [← t0, ← t2]
  exact h

end FIAT
