/-
C76: tables of wrapped, enriched and flattened elements.
-/
import Verif.Props.RtcLine
import Verif.Props.HdivCurl
import Verif.Lemmas.RtcAux

namespace FIAT
open MvPolynomial

/-- Specification: `tabulate` of a vector-valued element with components `n` in dimension `n`: for every entity, order and list of points the
table has exactly the multi-indices up to the order, and its entries are the derivatives of the components of the fields `w 0, w 1, ...`. -/
def TabulatesFields {n : ℕ} (X : TabElem ℝ ℝ) (w : ℕ → Fin n → MvPolynomial (Fin n) ℝ) (emb : Key → ℕ → List ℝ → Fin n → ℝ) : Prop :=
  ∀ d e t, HasEntity X.cell.topo d e t → ∀ order (pts : List (List ℝ)), (∀ p ∈ pts, p.length = d.tupleSum) →
    ∃ T, X.tabulate order pts (d, e) = some T ∧ Dict.WF T ∧ (∀ a, (Dict.get? T a).isSome ↔ a.length = n ∧ a.sum ≤ order) ∧
      ∀ a arr, Dict.get? T a = some arr → ∀ r < X.dim, ∀ (c : Fin n) (j : ℕ) p, pts[j]? = some p →
        arr r c j = eval (emb d e p) (iterDeriv a (w r c))

theorem wrapTabulate_wf (f : Arr ℝ → Option (Arr ℝ)) (old new : Tab ℝ) (h : wrapTabulate f old = some new) : Dict.WF new := by
  have key : ∀ (L : List (List ℕ × Arr ℝ)) (s R : Tab ℝ), Dict.WF s → L.foldlM (fun (res : Tab ℝ) (p : List ℕ × Arr ℝ) => do
      let temp ← f p.2
      some (Dict.put res p.1 temp)) s = some R → Dict.WF R := by
    intro L
    induction L with
    | nil => intro s R hs hR; simp at hR; exact hR ▸ hs
    | cons x L ih =>
      intro s R hs hR
      rw [List.foldlM_cons] at hR
      simp only [Option.bind_eq_bind, Option.bind_eq_some_iff] at hR
      obtain ⟨s', ⟨t, -, hs'⟩, hR⟩ := hR
      have : Dict.put s x.1 t = s' := Option.some.inj hs'
      exact ih s' R (this ▸ Dict.WF.put hs _ _) hR
  exact key _ _ _ (by simp [Dict.WF, Dict.keys]) h

theorem hdiv_tab_wf {iA iB : FormInfo} {A B : TabElem ℝ ℝ} {nodes : List (Bool × Functional ℝ (List ℝ))} {W : WrappedElem ℝ}
    (h : Hdiv iA iB A B nodes = some W) {order : ℕ} {points : List (List ℝ)} {ent : Key × ℕ} {T : Tab ℝ}
    (hT : W.tabulate order points ent = some T) : Dict.WF T := by
  unfold Hdiv at h
  simp only [Option.bind_eq_bind, Option.bind_eq_some_iff] at h
  obtain ⟨fd, -, m, -, h⟩ := h
  rw [← Option.some.inj h] at hT
  simp only [Option.bind_eq_bind, Option.bind_eq_some_iff] at hT
  obtain ⟨old, -, hT⟩ := hT
  exact wrapTabulate_wf _ _ _ hT

theorem hcurl_tab_wf {iA iB : FormInfo} {A B : TabElem ℝ ℝ} {nodes : List (Bool × Functional ℝ (List ℝ))} {W : WrappedElem ℝ}
    (h : Hcurl iA iB A B nodes = some W) {order : ℕ} {points : List (List ℝ)} {ent : Key × ℕ} {T : Tab ℝ}
    (hT : W.tabulate order points ent = some T) : Dict.WF T := by
  unfold Hcurl at h
  simp only [Option.bind_eq_bind, Option.bind_eq_some_iff] at h
  obtain ⟨fd, -, m, -, h⟩ := h
  rw [← Option.some.inj h] at hT
  simp only [Option.bind_eq_bind, Option.bind_eq_some_iff] at hT
  obtain ⟨old, -, hT⟩ := hT
  exact wrapTabulate_wf _ _ _ hT

theorem iterDeriv_C_mul {D : ℕ} (α : List ℕ) (b : ℝ) (p : MvPolynomial (Fin D) ℝ) : iterDeriv α (C b * p) = C b * iterDeriv α p := by
  have := iterDeriv_linear (K := ℝ) ({()} : Finset Unit) (fun _ => b) (fun _ => p) α
  simpa using this

/-- A wrapped product of elements on the interval. -/
theorem wrapped_fields {m m' M M' : ℕ} {elA : PolySet ℝ (Fin 1 → ℝ) M m Unit} {elB : PolySet ℝ (Fin 1 → ℝ) M' m' Unit}
    {idsA idsB : EntityIds Key} {ps qs : List (List ℝ)} {f g : ℕ → MvPolynomial (Fin 1) ℝ} {eA eB : Key → ℕ → List ℝ → Fin 1 → ℝ}
    (hA : IsNodalTab (ciarletTab true ufcInterval elA) idsA ps f eA) (hB : IsNodalTab (ciarletTab true ufcInterval elB) idsB qs g eB)
    {W : WrappedElem ℝ} {P : (ℕ → ℝ) → (ℕ → ℝ) → Prop}
    (hW : Wraps W (ciarletTab true ufcInterval elA) (ciarletTab true ufcInterval elB) P) (b : Fin 2 → ℝ)
    (hP : ∀ u w : ℕ → ℝ, P u w → ∀ c : Fin 2, w c = b c * u 0)
    (hwf : ∀ order points ent T, W.tabulate order points ent = some T → Dict.WF T) :
    TabulatesFields (wrappedPart (ciarletTab true ufcInterval elA) (ciarletTab true ufcInterval elB) idsA idsB W).el
      (fun r c => C (b c) * (prodBasis m' f g r : MvPolynomial (Fin 2) ℝ)) (prodEmb ufcInterval eA eB) := by
  intro d e t ht order pts hpts
  obtain ⟨T, t1, t2, t3⟩ := (product_nodal hA hB).tab d e t ht order pts hpts
  obtain ⟨new, n1, n2, n3⟩ := hW order pts (d, e) T t1
  refine ⟨new, n1, hwf _ _ _ _ n1, fun a => (n2 a).trans (t2 a), fun a arr ha r hr c j p hp => ?_⟩
  obtain ⟨old, ho⟩ := Option.isSome_iff_exists.1 ((n2 a).1 (by rw [ha]; rfl))
  have h1 := hP _ _ (n3 a old arr ho ha r j) c
  have h2 := t3 a old ho r hr j p hp
  beta_reduce at h1
  rw [h1, h2, iterDeriv_C_mul, map_mul, eval_C]
  rfl

/-- Specification: the fields of the first element, then those of the second. -/
def appendFields {α : Type} (n : ℕ) (w w' : ℕ → α) (r : ℕ) : α := if r < n then w r else w' (r - n)

/-- The enriched element of two elements with two components. -/
theorem enriched_fields {X Y : EnrichPart} {w w' : ℕ → Fin 2 → MvPolynomial (Fin 2) ℝ} {emb : Key → ℕ → List ℝ → Fin 2 → ℝ}
    (hX : TabulatesFields X.el w emb) (hY : TabulatesFields Y.el w' emb) (hcell : Y.el.cell.topo = X.el.cell.topo) (hmap : Y.map = X.map)
    (sX : X.el.shape = some 2) (sY : Y.el.shape = some 2) (hg : X.el.cell.topo.WF)
    (iX : Topology.WF X.ids ∧ SameEntities X.el.cell.topo X.ids ∧ DofsPartition X.ids X.el.dim)
    (iY : Topology.WF Y.ids ∧ SameEntities X.el.cell.topo Y.ids ∧ DofsPartition Y.ids Y.el.dim) :
    ∃ E ids, enrichedElement [X, Y] = some (E, ids, X.map, X.nodes ++ Y.nodes) ∧ E.cell = X.el.cell ∧ E.sd = X.el.sd ∧ E.shape = some 2 ∧
      E.dim = X.el.dim + Y.el.dim ∧ concatenateEntityDofs X.el.cell.topo [(X.el.dim, X.ids), (Y.el.dim, Y.ids)] = some ids ∧
      Concatenates X.el.cell.topo [(X.el.dim, X.ids), (Y.el.dim, Y.ids)] ids ∧
      TabulatesFields E (appendFields X.el.dim w w') emb := by
  obtain ⟨ids, i1, i2⟩ := concatenate_entity_dofs_spec X.el.cell.topo hg [(X.el.dim, X.ids), (Y.el.dim, Y.ids)] (by
    intro x hx
    simp only [List.mem_cons, List.not_mem_nil, or_false] at hx
    rcases hx with rfl | rfl
    · exact iX
    · exact iY)
  refine ⟨{ cell := X.el.cell, sd := X.el.sd, dim := ([X, Y].map fun x => x.el.dim).sum, shape := X.el.shape,
               tabulate := fun order points ent =>
                ([X, Y].mapM fun (x : EnrichPart) => (x.el.tabulate order points ent).map fun (t : Tab ℝ) =>
                  (⟨x.el.dim, X.el.shape.getD 1, t⟩ : SubTable ℝ (List ℕ))).map (enrichedTabulate (X.el.shape.getD 1)) }, ids, ?_, rfl, rfl, sX,
    by simp, i1, i2, ?_⟩
  · unfold enrichedElement
    dsimp only
    rw [if_pos (by simpa using hcell), if_pos (by simpa using hmap), if_pos (by simp [sX, sY])]
    change (concatenateEntityDofs X.el.cell.topo [(X.el.dim, X.ids), (Y.el.dim, Y.ids)]).map _ = _
    rw [i1, Option.map_some]
    simp
  · intro d e t ht order pts hpts
    obtain ⟨T, t1, t2, t3, t4⟩ := hX d e t ht order pts hpts
    obtain ⟨T', t1', t2', t3', t4'⟩ := hY d e t (by rw [hcell]; exact ht) order pts hpts
    have hw : ∀ y ∈ [(⟨X.el.dim, 2, T⟩ : SubTable ℝ (List ℕ)), ⟨Y.el.dim, 2, T'⟩], Dict.WF y.table := by
      intro y hy
      simp only [List.mem_cons, List.not_mem_nil, or_false] at hy
      rcases hy with rfl | rfl
      · exact t2
      · exact t2'
    have htab : ([X, Y].mapM fun (x : EnrichPart) => (x.el.tabulate order pts (d, e)).map fun (t : Tab ℝ) =>
        (⟨x.el.dim, X.el.shape.getD 1, t⟩ : SubTable ℝ (List ℕ))).map (enrichedTabulate (X.el.shape.getD 1)) =
        some (enrichedTabulate 2 [⟨X.el.dim, 2, T⟩, ⟨Y.el.dim, 2, T'⟩]) := by
      rw [sX]
      simp [t1, t1']
    refine ⟨_, htab, enriched_wf _ _, fun a => ?_, fun a arr ha r hr c j p hp => ?_⟩
    · rw [enriched_keys]
      simp [t3, t3']
    · obtain ⟨tb, h1⟩ : ∃ tb, Dict.get? T a = some tb := Option.isSome_iff_exists.1 ((t3 a).2 (by
        have := (enriched_keys 2 [(⟨X.el.dim, 2, T⟩ : SubTable ℝ (List ℕ)), ⟨Y.el.dim, 2, T'⟩] a).1 (by rw [ha]; rfl)
        simpa [t3, t3'] using this))
      obtain ⟨tb', h1'⟩ : ∃ tb, Dict.get? T' a = some tb := Option.isSome_iff_exists.1 ((t3' a).2 ((t3 a).1 (by rw [h1]; rfl)))
      have hr' : r < X.el.dim + Y.el.dim := by simpa using hr
      unfold appendFields
      by_cases hlt : r < X.el.dim
      · rw [if_pos hlt, ← t4 a tb h1 r hlt c j p hp]
        obtain ⟨arr', q1, q2⟩ := enriched_tabulate_block 2 [] [⟨Y.el.dim, 2, T'⟩] ⟨X.el.dim, 2, T⟩ hw a tb h1
        obtain rfl : arr = arr' := Option.some.inj (ha.symm.trans q1)
        have := q2 r hlt j c c.2
        simpa using this
      · rw [if_neg hlt, ← t4' a tb' h1' (r - X.el.dim) (by omega) c j p hp]
        obtain ⟨arr', q1, q2⟩ := enriched_tabulate_block 2 [⟨X.el.dim, 2, T⟩] [] ⟨Y.el.dim, 2, T'⟩ hw a tb' h1'
        obtain rfl : arr = arr' := Option.some.inj (ha.symm.trans q1)
        have := q2 (r - X.el.dim) (by simp only; omega) j c c.2
        simp only [List.map_cons, List.map_nil, List.sum_cons, List.sum_nil, add_zero] at this
        rwa [Nat.add_sub_cancel' (by omega)] at this

/-- Flattening keeps the tables. -/
theorem flat_fields {n : ℕ} {E : TabElem ℝ ℝ} {w : ℕ → Fin n → MvPolynomial (Fin n) ℝ} {emb : Key → ℕ → List ℝ → Fin n → ℝ}
    (hE : TabulatesFields E w emb) (gE : GoodCell E.cell) {c : CellData ℝ} (hc : IsFlatCell E.cell c) :
    TabulatesFields (flatOf E c) w (flatEmb E.cell.topo emb) := by
  intro k i t ht order pts hpts
  obtain ⟨d, rfl⟩ := hc.flat.ints _ _ _ ht
  obtain ⟨D, e, q1, q2⟩ := (flat_entities' gE hc d i t).1 ht
  have h7 := (unflatten_sound E.cell.topo gE.wf.1 gE.wf.2 hc.flat.sorted _ _ _ _ q1).1
  obtain ⟨T, t1, t2, t3, t4⟩ := hE D e t q2 order pts (fun p hp => by rw [hpts p hp, ← h7]; rfl)
  refine ⟨T, ?_, t2, t3, fun a arr ha x hx cc j p hp => ?_⟩
  · change (Dict.get? (computeUnflatteningMap E.cell.topo) (d, i)).bind (fun pe => E.tabulate order pts pe) = some T
    rw [q1]
    exact t1
  · rw [t4 a arr ha x hx cc j p hp]
    change _ = eval ((Dict.get? (computeUnflatteningMap E.cell.topo) (d, i)).elim 0 fun pe => emb pe.1 pe.2 p) _
    rw [q1]
    rfl

end FIAT
