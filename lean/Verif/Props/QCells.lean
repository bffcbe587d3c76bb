/-
C75: Lagrange elements on quadrilaterals and hexahedra, with all their properties.
-/
import Verif.Props.QShared

namespace FIAT
open MvPolynomial

/-- Everything about a continuous element whose functions are the polynomials of degree at most `a i` in variable `i`. -/
structure IsCubeElement (E : TabElem ℝ ℝ) (ids : EntityIds Key) (nodes : List (List ℝ)) (φ : ℕ → MvPolynomial (Fin E.sd) ℝ)
    (emb : Key → ℕ → List ℝ → Fin E.sd → ℝ) (P : Key → List (List ℝ)) (W : Key → List ℝ → List ℝ) (a : Fin E.sd → ℕ) : Prop where
  c0 : IsC0Element E ids nodes φ emb
  placed : DofsPlaced E ids nodes emb P
  weights : EmbWeights E emb W
  span : SpansDeg E.dim φ a

/-- Weights on the interval. -/
noncomputable def lineWeights : Key → List ℝ → List ℝ
  | .int 0, _ => [1]
  | .int 1, p => [1 - (p[0]?).getD 0, (p[0]?).getD 0]
  | _, _ => []

/-- Reference points on the interval: the vertex, the interior points. -/
noncomputable def linePlaces (pts : List (List ℝ)) : Key → List (List ℝ)
  | .int 0 => [[]]
  | .int 1 => pts
  | _ => []

theorem interval_entity {d : Key} {e : ℕ} {t : List ℕ} (h : HasEntity (ufcInterval : CellData ℝ).topo d e t) :
    (d = .int 0 ∧ (e = 0 ∨ e = 1) ∧ t = [e]) ∨ (d = .int 1 ∧ e = 0 ∧ t = [0, 1]) := by
  obtain ⟨es, h1, h2⟩ := h.mem
  change _ ∈ [(Key.int 0, [(0, [0]), (1, [1])]), (Key.int 1, [(0, [0, 1])])] at h1
  simp only [List.mem_cons, List.not_mem_nil, or_false, Prod.mk.injEq] at h1
  rcases h1 with ⟨rfl, rfl⟩ | ⟨rfl, rfl⟩
  · simp only [List.mem_cons, List.not_mem_nil, or_false, Prod.mk.injEq] at h2
    rcases h2 with ⟨rfl, rfl⟩ | ⟨rfl, rfl⟩ <;> simp
  · simp only [List.mem_cons, List.not_mem_nil, or_false, Prod.mk.injEq] at h2
    obtain ⟨rfl, rfl⟩ := h2
    simp

/-- C75: the Lagrange element on the interval. -/
theorem line_element (k : ℕ) (hk : 1 ≤ k) : ∃ (el : PolySet ℝ (Fin 1 → ℝ) ((k + 1).choose 1) ((k + 1).choose 1) Unit) (ids : EntityIds ℕ)
    (nodes : List (Fin 1 → ℝ)) (φ : ℕ → MvPolynomial (Fin 1) ℝ) (pts : List (List ℝ)),
    lagrangeElement ((ufcInterval : CellData ℝ).toSimplex 1) k = some (el, ids) ∧
    lagrangeDual ℝ ((ufcInterval : CellData ℝ).toSimplex 1) k = some (nodes, ids) ∧ (∀ p ∈ pts, p.length = 1) ∧ (k = 1 → pts = []) ∧
    IsCubeElement (ciarletTab true ufcInterval el) (intIds ids) (nodes.map List.ofFn) φ (simplexEmb ((ufcInterval : CellData ℝ).toSimplex 1))
      (linePlaces pts) lineWeights (fun _ => k) := by
  have hs := proper_ufcInterval (K := ℝ)
  have hints : IntKeys (ufcInterval : CellData ℝ).topo := by
    intro p hp
    change _ ∈ [(Key.int 0, [(0, [0]), (1, [1])]), (Key.int 1, [(0, [0, 1])])] at hp
    simp only [List.mem_cons, List.not_mem_nil, or_false] at hp
    rcases hp with rfl | rfl <;> exact ⟨_, rfl⟩
  have hdim : (ufcInterval : CellData ℝ).HasDim 1 := by
    intro v hv
    simp only [ufcInterval, List.mem_cons, List.not_mem_nil, or_false] at hv
    rcases hv with rfl | rfl <;> rfl
  obtain ⟨el, ids, nodes, φ, h1, h2, h3, h4, h5, h6⟩ := lagrange_c0_element (c := ufcInterval) (by norm_num) good_interval hints hdim hs
    (fun _ => by norm_num [SimplexCell.v, CellData.toSimplex, ufcInterval]) k hk
  have hspan : SpansDeg ((k + 1).choose 1) φ (fun _ : Fin 1 => k) := by
    intro p
    constructor
    · intro h
      exact h4 p (by rw [← degreeOf_one]; exact h 0)
    · rintro ⟨u, rfl⟩
      refine sum_degreeOf (a := fun _ => k) (fun j _ i => ?_) u
      have hi : i = (0 : Fin 1) := Subsingleton.elim _ _
      subst hi
      change degreeOf 0 (φ j) ≤ k
      rw [degreeOf_one]
      exact h3 j
  set pts := ((makePoints ℝ ((ufcInterval : CellData ℝ).toSimplex 1) 1 0 k).getD []).map List.ofFn with hpts
  have hplaces : ∀ {d e t}, HasEntity (ufcInterval : CellData ℝ).topo d e t →
      lagrangePlaces ((ufcInterval : CellData ℝ).toSimplex 1) k d = linePlaces pts d := by
    intro d e t h
    rcases interval_entity h with ⟨rfl, -, -⟩ | ⟨rfl, -, -⟩
    · rfl
    · simp [lagrangePlaces, linePlaces, hpts]
  have hlen : ∀ p ∈ pts, p.length = 1 := by
    intro p hp
    obtain ⟨x, -, rfl⟩ := List.mem_map.1 hp
    simp
  refine ⟨el, ids, nodes, φ, pts, h1, h2, hlen, ?_, ⟨h5, ⟨?_, ?_⟩, ?_, ?_⟩⟩
  · rintro rfl
    rw [hpts]
    have : makePoints ℝ ((ufcInterval : CellData ℝ).toSimplex 1) 1 0 1 = some [] := by
      rfl
    rw [this]
    rfl
  · intro d p hp
    unfold linePlaces at hp
    split at hp
    · rw [List.mem_singleton] at hp; rw [hp]; rfl
    · rw [hlen p hp]; rfl
    · exact absurd hp List.not_mem_nil
  · intro d e t l ht hl
    rw [← hplaces ht]
    exact h6.2 d e t l ht hl
  · intro d e t p ht hp
    rcases interval_entity ht with ⟨rfl, he, rfl⟩ | ⟨rfl, rfl, rfl⟩
    · refine ⟨rfl, by simp [lineWeights], fun (i : Fin 1) => ?_⟩
      have ht' := (toSimplex_entity hints 1 0 e [e]).2 ht
      change ((simplexTransform true ((ufcInterval : CellData ℝ).toSimplex 1) 0 e).elim 0 fun F => F (vecOf p)) i = _
      unfold simplexTransform
      rw [if_pos rfl, vertexOf_spec hs ht']
      change ((ufcInterval : CellData ℝ).toSimplex 1).v e i = _
      rw [coord_simplex]
      simp [lineWeights]
      rfl
    · refine ⟨rfl, by simp [lineWeights], fun (i : Fin 1) => ?_⟩
      change ((simplexTransform true ((ufcInterval : CellData ℝ).toSimplex 1) 1 0).elim 0 fun F => F (vecOf p)) i = _
      rw [entity_transform_cell true _ (by norm_num), if_pos rfl]
      change vecOf p i = (List.zipWith (fun w a => w * (ufcInterval : CellData ℝ).coord a i) (lineWeights (.int 1) p) [0, 1]).sum
      have hi : i = (0 : Fin 1) := Subsingleton.elim _ _
      subst hi
      simp [lineWeights, vecOf, CellData.coord, ufcInterval]
  · exact hspan

/-- C75: products. -/
theorem cube_product {A B : TabElem ℝ ℝ} {idsA idsB : EntityIds Key} {ps qs : List (List ℝ)} {f : ℕ → MvPolynomial (Fin A.sd) ℝ}
    {g : ℕ → MvPolynomial (Fin B.sd) ℝ} {eA : Key → ℕ → List ℝ → Fin A.sd → ℝ} {eB : Key → ℕ → List ℝ → Fin B.sd → ℝ}
    {P Q : Key → List (List ℝ)} {V W : Key → List ℝ → List ℝ} {a : Fin A.sd → ℕ} {b : Fin B.sd → ℕ}
    (hA : IsCubeElement A idsA ps f eA P V a) (hB : IsCubeElement B idsB qs g eB Q W b) :
    IsCubeElement (productTab A B) (tensorEntityIds B.dim idsA idsB) (prodNodes ps qs) (prodBasis B.dim f g) (prodEmb B.cell eA eB)
      (prodPlaces P Q) (prodWeights V W) (Fin.append a b) :=
  ⟨product_c0 hA.c0 hB.c0, product_placed hA.c0 hB.c0 hA.placed hB.placed, product_weights hA.c0 hB.c0 hA.weights hB.weights,
    spansDeg_prod hA.span hB.span⟩

/-- C75: flattening. -/
theorem cube_flatten {E : TabElem ℝ ℝ} {ids : EntityIds Key} {nodes : List (List ℝ)} {φ : ℕ → MvPolynomial (Fin E.sd) ℝ}
    {emb : Key → ℕ → List ℝ → Fin E.sd → ℝ} {P : Key → List (List ℝ)} {W : Key → List ℝ → List ℝ} {a : Fin E.sd → ℕ}
    (hE : IsCubeElement E ids nodes φ emb P W a) {c : CellData ℝ} (hc : IsFlatCell E.cell c) (gc : GoodCell c) {Q : ℕ → List (List ℝ)}
    (hPQ : ∀ d e t, HasEntity E.cell.topo d e t → P d = Q d.tupleSum) (hQ : ∀ d, ∀ p ∈ Q d, p.length = d) {W' : ℕ → List ℝ → List ℝ}
    (hWW : ∀ d e t p, HasEntity E.cell.topo d e t → p.length = d.tupleSum → W d p = W' d.tupleSum p) :
    IsCubeElement (flatOf E c) (flatIds ids) nodes φ (flatEmb E.cell.topo emb) (fun k => match k with | .int d => Q d | _ => [])
      (fun k => match k with | .int d => W' d | _ => fun _ => []) a :=
  ⟨flatten_c0 hE.c0 hc gc, flatten_placed hE.c0 hc hE.placed hPQ hQ, flatten_weights hE.c0 hc hE.weights hWW, hE.span⟩

end FIAT
