/-
C76: the H(div) element RTCF and the H(curl) element RTCE on the quadrilateral.
-/
import Verif.Props.Rtc

namespace FIAT
open MvPolynomial

/-- Two wrapped products of a Lagrange and a discontinuous element on the interval, in either order. -/
theorem append_fin1 (a b : ℕ) : (Fin.append (fun _ => a) (fun _ => b) : Fin (1 + 1) → ℕ) = ![a, b] := by
  funext i
  refine Fin.addCases (fun j => ?_) (fun j => ?_) i
  · rw [Fin.append_left]
    obtain rfl : j = 0 := Subsingleton.elim _ _
    rfl
  · rw [Fin.append_right]
    obtain rfl : j = 0 := Subsingleton.elim _ _
    rfl

section
variable {m m' M M' : ℕ} {elA : PolySet ℝ (Fin 1 → ℝ) M m Unit} {elB : PolySet ℝ (Fin 1 → ℝ) M' m' Unit}
    {idsA idsB : EntityIds Key} {ps qs : List (List ℝ)} {f g : ℕ → MvPolynomial (Fin 1) ℝ} {eA eB : Key → ℕ → List ℝ → Fin 1 → ℝ}

theorem hdiv_part_first (hA : IsNodalTab (ciarletTab true ufcInterval elA) idsA ps f eA) (hB : IsNodalTab (ciarletTab true ufcInterval elB) idsB qs g eB)
    (nodes : List (Bool × Functional ℝ (List ℝ))) :
    ∃ W, Hdiv infoC infoD (ciarletTab true ufcInterval elA) (ciarletTab true ufcInterval elB) nodes = some W ∧ W.shape = 2 ∧
      W.map = .contravariant ∧ TabulatesFields (wrappedPart (ciarletTab true ufcInterval elA) (ciarletTab true ufcInterval elB) idsA idsB W).el
        (fun r c => C ((![-1, 0] : Fin 2 → ℝ) c) * (prodBasis m' f g r : MvPolynomial (Fin 2) ℝ)) (prodEmb ufcInterval eA eB) := by
  obtain ⟨W, h1, s1, m1⟩ : ∃ W, Hdiv infoC infoD (ciarletTab true ufcInterval elA) (ciarletTab true ufcInterval elB) nodes =
    some W ∧ W.shape = 2 ∧ W.map = .contravariant := ⟨_, rfl, rfl, rfl⟩
  refine ⟨W, h1, s1, m1, wrapped_fields hA hB (hdiv_scalar_first _ _ _ _ _ _ h1 rfl rfl rfl) _ (fun u w hP c => ?_) (fun _ _ _ _ h => hdiv_tab_wf h1 h)⟩
  fin_cases c
  · have := hP.1 0 (by norm_num)
    simpa [infoC, infoD] using this
  · have := hP.2 1 (by decide) (by right; norm_num)
    simpa [infoC, infoD] using this

theorem hdiv_part_second (hA : IsNodalTab (ciarletTab true ufcInterval elA) idsA ps f eA) (hB : IsNodalTab (ciarletTab true ufcInterval elB) idsB qs g eB)
    (nodes : List (Bool × Functional ℝ (List ℝ))) :
    ∃ W, Hdiv infoD infoC (ciarletTab true ufcInterval elA) (ciarletTab true ufcInterval elB) nodes = some W ∧ W.shape = 2 ∧
      W.map = .contravariant ∧ TabulatesFields (wrappedPart (ciarletTab true ufcInterval elA) (ciarletTab true ufcInterval elB) idsA idsB W).el
        (fun r c => C ((![0, 1] : Fin 2 → ℝ) c) * (prodBasis m' f g r : MvPolynomial (Fin 2) ℝ)) (prodEmb ufcInterval eA eB) := by
  obtain ⟨W, h1, s1, m1⟩ : ∃ W, Hdiv infoD infoC (ciarletTab true ufcInterval elA) (ciarletTab true ufcInterval elB) nodes =
    some W ∧ W.shape = 2 ∧ W.map = .contravariant := ⟨_, rfl, rfl, rfl⟩
  refine ⟨W, h1, s1, m1, wrapped_fields hA hB (hdiv_scalar_second _ _ _ _ _ _ h1 rfl rfl (by decide) rfl) _ (fun u w hP c => ?_) (fun _ _ _ _ h => hdiv_tab_wf h1 h)⟩
  fin_cases c
  · have := hP.2 0 (by decide) (by left; decide)
    simpa [infoC, infoD] using this
  · have := hP.1 0 (by norm_num)
    simpa [infoC, infoD] using this

theorem hcurl_part_first (hA : IsNodalTab (ciarletTab true ufcInterval elA) idsA ps f eA) (hB : IsNodalTab (ciarletTab true ufcInterval elB) idsB qs g eB)
    (nodes : List (Bool × Functional ℝ (List ℝ))) :
    ∃ W, Hcurl infoD infoC (ciarletTab true ufcInterval elA) (ciarletTab true ufcInterval elB) nodes = some W ∧ W.shape = 2 ∧
      W.map = .covariant ∧ TabulatesFields (wrappedPart (ciarletTab true ufcInterval elA) (ciarletTab true ufcInterval elB) idsA idsB W).el
        (fun r c => C ((![1, 0] : Fin 2 → ℝ) c) * (prodBasis m' f g r : MvPolynomial (Fin 2) ℝ)) (prodEmb ufcInterval eA eB) := by
  obtain ⟨W, h1, s1, m1⟩ : ∃ W, Hcurl infoD infoC (ciarletTab true ufcInterval elA) (ciarletTab true ufcInterval elB) nodes =
    some W ∧ W.shape = 2 ∧ W.map = .covariant := ⟨_, rfl, rfl, rfl⟩
  refine ⟨W, h1, s1, m1, wrapped_fields hA hB (hcurl_scalar_first _ _ _ _ _ _ h1 rfl rfl rfl) _ (fun u w hP c => ?_) (fun _ _ _ _ h => hcurl_tab_wf h1 h)⟩
  fin_cases c
  · have := hP.1 0 (by norm_num)
    simpa [infoC, infoD] using this
  · have := hP.2 1 (by decide) (by right; norm_num)
    simpa [infoC, infoD] using this

theorem hcurl_part_second (hA : IsNodalTab (ciarletTab true ufcInterval elA) idsA ps f eA) (hB : IsNodalTab (ciarletTab true ufcInterval elB) idsB qs g eB)
    (nodes : List (Bool × Functional ℝ (List ℝ))) :
    ∃ W, Hcurl infoC infoD (ciarletTab true ufcInterval elA) (ciarletTab true ufcInterval elB) nodes = some W ∧ W.shape = 2 ∧
      W.map = .covariant ∧ TabulatesFields (wrappedPart (ciarletTab true ufcInterval elA) (ciarletTab true ufcInterval elB) idsA idsB W).el
        (fun r c => C ((![0, 1] : Fin 2 → ℝ) c) * (prodBasis m' f g r : MvPolynomial (Fin 2) ℝ)) (prodEmb ufcInterval eA eB) := by
  obtain ⟨W, h1, s1, m1⟩ : ∃ W, Hcurl infoC infoD (ciarletTab true ufcInterval elA) (ciarletTab true ufcInterval elB) nodes =
    some W ∧ W.shape = 2 ∧ W.map = .covariant := ⟨_, rfl, rfl, rfl⟩
  refine ⟨W, h1, s1, m1, wrapped_fields hA hB (hcurl_scalar_second _ _ _ _ _ _ h1 rfl rfl (by decide) rfl) _ (fun u w hP c => ?_) (fun _ _ _ _ h => hcurl_tab_wf h1 h)⟩
  fin_cases c
  · have := hP.2 0 (by decide) (by left; decide)
    simpa [infoC, infoD] using this
  · have := hP.1 0 (by norm_num)
    simpa [infoC, infoD] using this

end

theorem line_nodes {m M : ℕ} {el : PolySet ℝ (Fin 1 → ℝ) M m Unit} {ids : EntityIds Key} {ps : List (List ℝ)} {f : ℕ → MvPolynomial (Fin 1) ℝ}
    {e : Key → ℕ → List ℝ → Fin 1 → ℝ} (h : IsNodalTab (ciarletTab true ufcInterval el) ids ps f e) :
    ∃ x : ℕ → ℝ, ∀ a < m, ∀ j < m, eval (fun _ : Fin 1 => x a) (f j) = if a = j then 1 else 0 := by
  refine ⟨fun a => (vecOf ((ps[a]?).getD []) : Fin 1 → ℝ) 0, fun a ha j hj => ?_⟩
  have hl : ps.length = m := h.nodes_len.1
  have ha' : a < ps.length := by omega
  have h1 : eval (vecOf ps[a] : Fin 1 → ℝ) (f j) = if a = j then 1 else 0 := h.nodal a _ (List.getElem?_eq_getElem ha') j hj
  rw [← h1]
  refine congrArg (fun y => eval y (f j)) ?_
  funext i
  obtain rfl : i = 0 := Subsingleton.elim _ _
  beta_reduce
  rw [List.getElem?_eq_getElem ha']
  rfl

theorem prod_independent {N n : ℕ} {f g : ℕ → MvPolynomial (Fin 1) ℝ} {x y : ℕ → ℝ}
    (hf : ∀ a < N, ∀ j < N, eval (fun _ : Fin 1 => x a) (f j) = if a = j then 1 else 0)
    (hg : ∀ a < n, ∀ j < n, eval (fun _ : Fin 1 => y a) (g j) = if a = j then 1 else 0) (u : ℕ → ℝ)
    (h : ∑ r ∈ Finset.range (N * n), C (u r) * (prodBasis (m := 1) (n := 1) n f g r : MvPolynomial (Fin 2) ℝ) = 0) : ∀ r < N * n, u r = 0 := by
  intro r hr
  have hn : 0 < n := Nat.pos_of_ne_zero fun h0 => by rw [h0] at hr; omega
  have ha : r / n < N := Nat.div_lt_of_lt_mul (by rwa [Nat.mul_comm] at hr)
  have hb : r % n < n := Nat.mod_lt _ hn
  have h1 := congrArg (eval (![x (r / n), y (r % n)] : Fin 2 → ℝ)) h
  rw [map_sum, map_zero] at h1
  simp only [map_mul, eval_C] at h1
  rw [trace_left (x := ![x (r / n), y (r % n)]) ha (hf _ ha) u, Finset.sum_eq_single (r % n)] at h1
  · have h2 := hg _ hb _ hb
    rw [if_pos rfl] at h2
    change u (r / n * n + r % n) * eval (fun _ : Fin 1 => y (r % n)) (g (r % n)) = 0 at h1
    rw [h2, mul_one, Nat.div_add_mod'] at h1
    exact h1
  · intro b hb' hbr
    change _ * eval (fun _ : Fin 1 => y (r % n)) (g b) = 0
    rw [hg _ hb _ (Finset.mem_range.1 hb'), if_neg (Ne.symm hbr), mul_zero]
  · intro hh; exact absurd (Finset.mem_range.2 hb) hh

theorem rtcf_core {k l : ℕ} {N n M M' : ℕ} {elA : PolySet ℝ (Fin 1 → ℝ) M N Unit} {elB : PolySet ℝ (Fin 1 → ℝ) M' n Unit}
    {idsA idsB : EntityIds Key} {ps qs : List (List ℝ)} {f g : ℕ → MvPolynomial (Fin 1) ℝ} {v : ℕ → ℕ} {LA : List ℕ}
    (nA : IsNodalTab (ciarletTab true ufcInterval elA) idsA ps f (simplexEmb ((ufcInterval : CellData ℝ).toSimplex 1)))
    (nB : IsNodalTab (ciarletTab true ufcInterval elB) idsB qs g (simplexEmb ((ufcInterval : CellData ℝ).toSimplex 1)))
    (sA : SpansDeg N f (fun _ => k)) (sB : SpansDeg n g (fun _ => l)) (a0 : ∀ e < 2, idsA.at? (.int 0) e = some [v e])
    (a1 : idsA.at? (.int 1) 0 = some LA) (hv : ∀ e < 2, v e < N)
    (hf : ∀ e : ℕ, e < 2 → ∀ j < N, eval (fun _ : Fin 1 => (e : ℝ)) (f j) = if v e = j then 1 else 0)
    (b0 : ∀ e < 2, idsB.at? (.int 0) e = some []) (b1 : idsB.at? (.int 1) 0 = some (List.range n)) :
    ∃ (E : TabElem ℝ ℝ) (ids : EntityIds Key),
      rtcf (ciarletTab true ufcInterval elA) (ciarletTab true ufcInterval elB) idsA idsB ps qs = some (E, ids, .contravariant) ∧
      E.cell = ufcQuadrilateral ∧ E.sd = 2 ∧ E.shape = some 2 ∧ E.dim = N * n + n * N ∧
      SameEntities E.cell.topo ids ∧ DofsPartition ids E.dim ∧
      ∃ (w : ℕ → Fin 2 → MvPolynomial (Fin 2) ℝ) (emb : Key → ℕ → List ℝ → Fin 2 → ℝ),
        TabulatesFields E w emb ∧ IsQuadEmb E.cell emb ∧ IsFieldBasis E.dim w ![![k, l], ![l, k]] ∧ IsEdgeElement E.cell ids E.dim n cross2 w g := by
  obtain ⟨W1, h1, s1, m1, w1⟩ := hdiv_part_first nA nB (evalNodes ps qs)
  obtain ⟨W2, h2, s2, m2, w2⟩ := hdiv_part_second nB nA (evalNodes qs ps)
  have pX := product_nodal nA nB
  have pY := product_nodal nB nA
  obtain ⟨E, ids, e1, e2, e3, e4, e5, e6, e7, e8, e9⟩ := flat_pair w1 w2 rfl rfl rfl (m2.trans m1.symm) (congrArg some s1) (congrArg some s2)
    ⟨pX.wf, pX.same, pX.part⟩ ⟨pY.wf, pY.same, pY.part⟩
  have hdim : E.dim = N * n + n * N := e5
  have e8' : TabulatesFields E (appendFields (N * n) (fun r c => C ((![-1, 0] : Fin 2 → ℝ) c) * (prodBasis n f g r : MvPolynomial (Fin 2) ℝ)) (fun r c => C ((![0, 1] : Fin 2 → ℝ) c) * (prodBasis N g f r : MvPolynomial (Fin 2) ℝ))) _ := e8
  clear e8 w1 w2
  have e9' : ∀ d i D e lX lY, Dict.get? (computeUnflatteningMap (tensorProductCell [ufcInterval, ufcInterval] : CellData ℝ).topo) (d, i) = some (D, e) →
      (tensorEntityIds n idsA idsB).at? D e = some lX → (tensorEntityIds N idsB idsA).at? D e = some lY →
      ids.at? (.int d) i = some (lX ++ lY.map (N * n + ·)) := e9
  clear e9
  rename' e9' => e9
  obtain ⟨⟨d1, d2, d3⟩, d4, d5, d6⟩ := line_pair_dofs (N := N) nA.wf nB.wf nA.order nB.order nA.same nB.same a0 a1 b0 b1
  refine ⟨E, ids, ?_, e2, e3, e4, hdim, e6, e7, _, _, e8', by rw [e2]; exact quad_emb, ?_, ?_⟩
  · unfold rtcf
    rw [h1, Option.bind_some, h2, Option.bind_some, e1]
    exact congrArg (fun m => some (E, ids, m)) m1
  · rw [hdim]
    obtain ⟨xa, xA⟩ := line_nodes nA
    obtain ⟨xb, xB⟩ := line_nodes nB
    have s1' := spansDeg_prod sA sB
    have s2' := spansDeg_prod sB sA
    rw [append_fin1] at s1' s2'
    have t1 : SpansDeg (N * n) (prodBasis (m := 1) (n := 1) n f g : ℕ → MvPolynomial (Fin 2) ℝ) ![k, l] := s1'
    have t2 : SpansDeg (n * N) (prodBasis (m := 1) (n := 1) N g f : ℕ → MvPolynomial (Fin 2) ℝ) ![l, k] := s2'
    have i1 : ∀ u : ℕ → ℝ, ∑ r ∈ Finset.range (N * n), C (u r) * (prodBasis (m := 1) (n := 1) n f g r : MvPolynomial (Fin 2) ℝ) = 0 →
        ∀ r < N * n, u r = 0 := prod_independent xA xB
    have i2 : ∀ u : ℕ → ℝ, ∑ r ∈ Finset.range (n * N), C (u r) * (prodBasis (m := 1) (n := 1) N g f r : MvPolynomial (Fin 2) ℝ) = 0 →
        ∀ r < n * N, u r = 0 := prod_independent xB xA
    refine append_basis (p := 0) (q := 1) (by decide) ?_ ?_ ?_ ?_ t1 t2 i1 i2 <;> norm_num
  · rw [e2, hdim]
    rw [e2] at e6
    refine rtc_edge (oAB := 0) (oBA := N * n) (bAB := ![-1, 0]) (bBA := ![0, 1]) e6
      (fun e he => e9 _ _ _ _ [] [] ((quad_map e).1 he) (d1 e he) (d4 e he)) (fun e he => ?_) (fun e he => ?_) hv hf
      (fun u x => ?_) (fun x y => by simp [cross2]) (fun x y => by simp [cross2])
    · have := e9 _ _ _ _ _ [] ((quad_map e).2.1 he) (d2 e he) (d5 e he)
      simpa using this
    · have := e9 _ _ _ _ [] _ ((quad_map e).2.2 he) (d3 e he) (d6 e he)
      rw [List.nil_append, List.map_map] at this
      exact this
    · funext c
      have := fieldAt_append (N * n) (n * N) (prodBasis (m := 1) (n := 1) n f g) (prodBasis (m := 1) (n := 1) N g f)
        ![-1, 0] ![0, 1] u x c
      simp only [Nat.zero_add]
      exact this

/-- C76: `FlattenedDimensions(EnrichedElement(Hdiv(TensorProductElement(A, B)), Hdiv(TensorProductElement(B, A))))` for
`A = Lagrange(interval, k)` and `B = DiscontinuousLagrange(interval, l)`. -/
theorem rtcf_element {k l : ℕ} (hk : 1 ≤ k) {A B : TabElem ℝ ℝ} {idsA idsB : EntityIds Key} {ps qs : List (List ℝ)}
    (hA : IsLineLagrange k A idsA ps) (hB : IsLineDG l B idsB qs) :
    ∃ (E : TabElem ℝ ℝ) (ids : EntityIds Key), rtcf A B idsA idsB ps qs = some (E, ids, .contravariant) ∧
      E.cell = ufcQuadrilateral ∧ E.sd = 2 ∧ E.shape = some 2 ∧ E.dim = 2 * ((k + 1) * (l + 1)) ∧
      SameEntities E.cell.topo ids ∧ DofsPartition ids E.dim ∧
      ∃ (w : ℕ → Fin 2 → MvPolynomial (Fin 2) ℝ) (emb : Key → ℕ → List ℝ → Fin 2 → ℝ) (ψ : ℕ → MvPolynomial (Fin 1) ℝ),
        TabulatesFields E w emb ∧ IsQuadEmb E.cell emb ∧ IsFieldBasis E.dim w ![![k, l], ![l, k]] ∧
        IsEdgeElement E.cell ids E.dim (l + 1) cross2 w ψ ∧ SpansDeg (l + 1) ψ (fun _ => l) ∧
        (qs.length = l + 1 ∧ ∀ (i : ℕ) q, qs[i]? = some q → ∀ j < l + 1, eval (vecOf q) (ψ j) = if i = j then 1 else 0) := by
  obtain ⟨elA, f, v, LA, rfl, nA, sA, a0, a1, hv, hf⟩ := lineC_spec hk hA
  obtain ⟨elB, g, rfl, nB, sB, b0, b0', b1⟩ := lineDG_spec hB
  have cN : (k + 1).choose 1 = k + 1 := Nat.choose_one_right _
  have cn : (l + 1).choose 1 = l + 1 := Nat.choose_one_right _
  clear hA hB
  generalize (k + 1).choose 1 = N at *
  generalize (l + 1).choose 1 = n at *
  subst cN cn
  obtain ⟨E, ids, e1, e2, e3, e4, e5, e6, e7, w, emb, e8, e9, e10, e11⟩ := rtcf_core nA nB sA sB a0 a1 hv hf
    (fun e he => by interval_cases e <;> assumption) b1
  exact ⟨E, ids, e1, e2, e3, e4, by rw [e5]; ring, e6, e7, w, emb, g, e8, e9, e10, e11, sB, nB.nodes_len.1, nB.nodal⟩

theorem rtce_core {k l : ℕ} {N n M M' : ℕ} {elA : PolySet ℝ (Fin 1 → ℝ) M N Unit} {elB : PolySet ℝ (Fin 1 → ℝ) M' n Unit}
    {idsA idsB : EntityIds Key} {ps qs : List (List ℝ)} {f g : ℕ → MvPolynomial (Fin 1) ℝ} {v : ℕ → ℕ} {LA : List ℕ}
    (nA : IsNodalTab (ciarletTab true ufcInterval elA) idsA ps f (simplexEmb ((ufcInterval : CellData ℝ).toSimplex 1)))
    (nB : IsNodalTab (ciarletTab true ufcInterval elB) idsB qs g (simplexEmb ((ufcInterval : CellData ℝ).toSimplex 1)))
    (sA : SpansDeg N f (fun _ => k)) (sB : SpansDeg n g (fun _ => l)) (a0 : ∀ e < 2, idsA.at? (.int 0) e = some [v e])
    (a1 : idsA.at? (.int 1) 0 = some LA) (hv : ∀ e < 2, v e < N)
    (hf : ∀ e : ℕ, e < 2 → ∀ j < N, eval (fun _ : Fin 1 => (e : ℝ)) (f j) = if v e = j then 1 else 0)
    (b0 : ∀ e < 2, idsB.at? (.int 0) e = some []) (b1 : idsB.at? (.int 1) 0 = some (List.range n)) :
    ∃ (E : TabElem ℝ ℝ) (ids : EntityIds Key),
      rtce (ciarletTab true ufcInterval elA) (ciarletTab true ufcInterval elB) idsA idsB ps qs = some (E, ids, .covariant) ∧
      E.cell = ufcQuadrilateral ∧ E.sd = 2 ∧ E.shape = some 2 ∧ E.dim = n * N + N * n ∧
      SameEntities E.cell.topo ids ∧ DofsPartition ids E.dim ∧
      ∃ (w : ℕ → Fin 2 → MvPolynomial (Fin 2) ℝ) (emb : Key → ℕ → List ℝ → Fin 2 → ℝ),
        TabulatesFields E w emb ∧ IsQuadEmb E.cell emb ∧ IsFieldBasis E.dim w ![![l, k], ![k, l]] ∧ IsEdgeElement E.cell ids E.dim n dot2 w g := by
  obtain ⟨W1, h1, s1, m1, w1⟩ := hcurl_part_first nB nA (evalNodes qs ps)
  obtain ⟨W2, h2, s2, m2, w2⟩ := hcurl_part_second nA nB (evalNodes ps qs)
  have pX := product_nodal nB nA
  have pY := product_nodal nA nB
  obtain ⟨E, ids, e1, e2, e3, e4, e5, e6, e7, e8, e9⟩ := flat_pair w1 w2 rfl rfl rfl (m2.trans m1.symm) (congrArg some s1) (congrArg some s2)
    ⟨pX.wf, pX.same, pX.part⟩ ⟨pY.wf, pY.same, pY.part⟩
  have hdim : E.dim = n * N + N * n := e5
  have e8' : TabulatesFields E (appendFields (n * N) (fun r c => C ((![1, 0] : Fin 2 → ℝ) c) * (prodBasis N g f r : MvPolynomial (Fin 2) ℝ)) (fun r c => C ((![0, 1] : Fin 2 → ℝ) c) * (prodBasis n f g r : MvPolynomial (Fin 2) ℝ))) _ := e8
  clear e8 w1 w2
  have e9' : ∀ d i D e lX lY, Dict.get? (computeUnflatteningMap (tensorProductCell [ufcInterval, ufcInterval] : CellData ℝ).topo) (d, i) = some (D, e) →
      (tensorEntityIds N idsB idsA).at? D e = some lX → (tensorEntityIds n idsA idsB).at? D e = some lY →
      ids.at? (.int d) i = some (lX ++ lY.map (n * N + ·)) := e9
  clear e9
  rename' e9' => e9
  obtain ⟨⟨d1, d2, d3⟩, d4, d5, d6⟩ := line_pair_dofs (N := N) nA.wf nB.wf nA.order nB.order nA.same nB.same a0 a1 b0 b1
  refine ⟨E, ids, ?_, e2, e3, e4, hdim, e6, e7, _, _, e8', by rw [e2]; exact quad_emb, ?_, ?_⟩
  · unfold rtce
    rw [h1, Option.bind_some, h2, Option.bind_some, e1]
    exact congrArg (fun m => some (E, ids, m)) m1
  · rw [hdim]
    obtain ⟨xa, xA⟩ := line_nodes nA
    obtain ⟨xb, xB⟩ := line_nodes nB
    have s1' := spansDeg_prod sB sA
    have s2' := spansDeg_prod sA sB
    rw [append_fin1] at s1' s2'
    have t1 : SpansDeg (n * N) (prodBasis (m := 1) (n := 1) N g f : ℕ → MvPolynomial (Fin 2) ℝ) ![l, k] := s1'
    have t2 : SpansDeg (N * n) (prodBasis (m := 1) (n := 1) n f g : ℕ → MvPolynomial (Fin 2) ℝ) ![k, l] := s2'
    have i1 : ∀ u : ℕ → ℝ, ∑ r ∈ Finset.range (n * N), C (u r) * (prodBasis (m := 1) (n := 1) N g f r : MvPolynomial (Fin 2) ℝ) = 0 →
        ∀ r < n * N, u r = 0 := prod_independent xB xA
    have i2 : ∀ u : ℕ → ℝ, ∑ r ∈ Finset.range (N * n), C (u r) * (prodBasis (m := 1) (n := 1) n f g r : MvPolynomial (Fin 2) ℝ) = 0 →
        ∀ r < N * n, u r = 0 := prod_independent xA xB
    refine append_basis (p := 0) (q := 1) (by decide) ?_ ?_ ?_ ?_ t1 t2 i1 i2 <;> norm_num
  · rw [e2, hdim]
    rw [e2] at e6
    refine rtc_edge (oAB := n * N) (oBA := 0) (bAB := ![0, 1]) (bBA := ![1, 0]) e6
      (fun e he => e9 _ _ _ _ [] [] ((quad_map e).1 he) (d4 e he) (d1 e he)) (fun e he => ?_) (fun e he => ?_) hv hf
      (fun u x => ?_) (fun x y => by simp [dot2]) (fun x y => by simp [dot2])
    · have := e9 _ _ _ _ [] _ ((quad_map e).2.1 he) (d5 e he) (d2 e he)
      rw [List.nil_append, List.map_map] at this
      exact this
    · have := e9 _ _ _ _ _ [] ((quad_map e).2.2 he) (d6 e he) (d3 e he)
      simpa using this
    · funext c
      have := fieldAt_append (n * N) (N * n) (prodBasis (m := 1) (n := 1) N g f) (prodBasis (m := 1) (n := 1) n f g)
        ![1, 0] ![0, 1] u x c
      simp only [Nat.zero_add]
      refine this.trans ?_
      rw [add_comm]

/-- C76: `FlattenedDimensions(EnrichedElement(Hcurl(TensorProductElement(B, A)), Hcurl(TensorProductElement(A, B))))` for
`A = Lagrange(interval, k)` and `B = DiscontinuousLagrange(interval, l)`. -/
theorem rtce_element {k l : ℕ} (hk : 1 ≤ k) {A B : TabElem ℝ ℝ} {idsA idsB : EntityIds Key} {ps qs : List (List ℝ)}
    (hA : IsLineLagrange k A idsA ps) (hB : IsLineDG l B idsB qs) :
    ∃ (E : TabElem ℝ ℝ) (ids : EntityIds Key), rtce A B idsA idsB ps qs = some (E, ids, .covariant) ∧
      E.cell = ufcQuadrilateral ∧ E.sd = 2 ∧ E.shape = some 2 ∧ E.dim = 2 * ((k + 1) * (l + 1)) ∧
      SameEntities E.cell.topo ids ∧ DofsPartition ids E.dim ∧
      ∃ (w : ℕ → Fin 2 → MvPolynomial (Fin 2) ℝ) (emb : Key → ℕ → List ℝ → Fin 2 → ℝ) (ψ : ℕ → MvPolynomial (Fin 1) ℝ),
        TabulatesFields E w emb ∧ IsQuadEmb E.cell emb ∧ IsFieldBasis E.dim w ![![l, k], ![k, l]] ∧
        IsEdgeElement E.cell ids E.dim (l + 1) dot2 w ψ ∧ SpansDeg (l + 1) ψ (fun _ => l) ∧
        (qs.length = l + 1 ∧ ∀ (i : ℕ) q, qs[i]? = some q → ∀ j < l + 1, eval (vecOf q) (ψ j) = if i = j then 1 else 0) := by
  obtain ⟨elA, f, v, LA, rfl, nA, sA, a0, a1, hv, hf⟩ := lineC_spec hk hA
  obtain ⟨elB, g, rfl, nB, sB, b0, b0', b1⟩ := lineDG_spec hB
  have cN : (k + 1).choose 1 = k + 1 := Nat.choose_one_right _
  have cn : (l + 1).choose 1 = l + 1 := Nat.choose_one_right _
  clear hA hB
  generalize (k + 1).choose 1 = N at *
  generalize (l + 1).choose 1 = n at *
  subst cN cn
  obtain ⟨E, ids, e1, e2, e3, e4, e5, e6, e7, w, emb, e8, e9, e10, e11⟩ := rtce_core nA nB sA sB a0 a1 hv hf
    (fun e he => by interval_cases e <;> assumption) b1
  exact ⟨E, ids, e1, e2, e3, e4, by rw [e5]; ring, e6, e7, w, emb, g, e8, e9, e10, e11, sB, nB.nodes_len.1, nB.nodal⟩

end FIAT
