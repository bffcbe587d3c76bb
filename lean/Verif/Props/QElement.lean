/-
C75: Lagrange elements on quadrilaterals and hexahedra.
-/
import Verif.Props.FlatElement
import Verif.Lemmas.QSpace

namespace FIAT
open MvPolynomial

theorem map_eq_forall₂ {α β γ : Type} (F : α → γ) (G : β → γ) (l : List α) (m : List β) :
    l.map F = m.map G ↔ List.Forall₂ (fun a b => F a = G b) l m := by
  rw [← List.forall₂_eq_eq_eq, List.forall₂_map_left_iff, List.forall₂_map_right_iff]

theorem forall₂_pairs {n : ℕ} {la lb : List ℕ} {Pa Qb : List (List ℝ)} {R S T : ℕ → List ℝ → Prop} (hA : List.Forall₂ R la Pa)
    (hB : List.Forall₂ S lb Qb) (h : ∀ x p y q, R x p → p ∈ Pa → S y q → q ∈ Qb → T (x * n + y) (p ++ q)) :
    List.Forall₂ T (la.flatMap fun x => lb.map fun y => x * n + y) (Pa.flatMap fun p => Qb.map fun q => p ++ q) := by
  have inner : ∀ x p, (∀ y q, S y q → q ∈ Qb → T (x * n + y) (p ++ q)) →
      List.Forall₂ T (lb.map fun y => x * n + y) (Qb.map fun q => p ++ q) := by
    intro x p h
    rw [List.forall₂_map_left_iff, List.forall₂_map_right_iff]
    induction hB with
    | nil => exact List.Forall₂.nil
    | @cons y q lb Qb hyq _ ih =>
      exact List.Forall₂.cons (h y q hyq List.mem_cons_self)
        (ih (fun x p y q a b c d => by rename_i h0; exact h0 x p y q a b c (List.mem_cons_of_mem _ d))
          (fun y q a b => h y q a (List.mem_cons_of_mem _ b)))
  induction hA with
  | nil => exact List.Forall₂.nil
  | @cons x p la Pa hxp _ ih =>
    rw [List.flatMap_cons, List.flatMap_cons]
    exact List.rel_append (inner x p fun y q a b => h x p y q hxp List.mem_cons_self a b)
      (ih fun x p y q a b c d => h x p y q a (List.mem_cons_of_mem _ b) c d)

/-- The reference points of a product. -/
noncomputable def prodPlaces (P Q : Key → List (List ℝ)) : Key → List (List ℝ)
  | .cons da (.cons db .nil) => prodNodes (P da) (Q db)
  | _ => []

/-- C75: the dofs on an entity of a product cell are the evaluations at the pairs of points of the factors. -/
theorem product_placed {A B : TabElem ℝ ℝ} {idsA idsB : EntityIds Key} {ps qs : List (List ℝ)} {f : ℕ → MvPolynomial (Fin A.sd) ℝ}
    {g : ℕ → MvPolynomial (Fin B.sd) ℝ} {eA : Key → ℕ → List ℝ → Fin A.sd → ℝ} {eB : Key → ℕ → List ℝ → Fin B.sd → ℝ}
    (hA : IsC0Element A idsA ps f eA) (hB : IsC0Element B idsB qs g eB) {P Q : Key → List (List ℝ)} (hP : DofsPlaced A idsA ps eA P)
    (hQ : DofsPlaced B idsB qs eB Q) :
    DofsPlaced (productTab A B) (tensorEntityIds B.dim idsA idsB) (prodNodes ps qs) (prodEmb B.cell eA eB) (prodPlaces P Q) := by
  have hts : ∀ da db : Key, (Key.tup [da, db]).tupleSum = da.tupleSum + db.tupleSum := by
    intro da db; simp [Key.tup, Key.tupleSum]
  constructor
  · intro d r hr
    unfold prodPlaces at hr
    split at hr
    · rename_i da db
      obtain ⟨p, hp, h⟩ := List.mem_flatMap.1 hr
      obtain ⟨q, hq, rfl⟩ := List.mem_map.1 h
      rw [List.length_append, hP.1 _ _ hp, hQ.1 _ _ hq]
      exact (hts da db).symm
    · exact absurd hr List.not_mem_nil
  intro D e t l ht hl
  obtain ⟨da, ea, va, db, eb, vb, k1, k2, rfl, rfl, k3, rfl⟩ := pair_factors hA.good hB.good ht
  obtain ⟨da', db', ea', eb', la, lb, hD, m1, m2, m3, rfl⟩ := (tensor_dofs_at _ _ _ hA.wf hB.wf hA.order hB.order _ _ _).1 hl
  have hD' := Key.tup_injective hD
  simp only [List.cons.injEq, and_true] at hD'
  obtain ⟨rfl, rfl⟩ := hD'
  rw [numListed_eq hB.good.wf hB.wf hB.same m2] at m3
  obtain ⟨vb', hvb'⟩ := (hB.same _ _).1 (by rw [m2]; rfl)
  have hlt : eb' < numEntities B.cell.topo db := by
    obtain ⟨es, a1, a2⟩ := hvb'
    have h5 : eb' ∈ pySorted (Dict.keys es) := by
      rw [mem_pySorted]
      exact Dict.get?_isSome_iff.1 (by rw [a2]; rfl)
    rw [hB.good.numbered _ _ (Dict.mem_of_get? a1), List.mem_range] at h5
    unfold numEntities
    rw [a1]; exact h5
  obtain ⟨rfl, rfl⟩ := pair_index k3 hlt m3
  have hlA := (map_eq_forall₂ _ _ _ _).1 (hP.2 _ _ _ _ k1 m1)
  have hlB := (map_eq_forall₂ _ _ _ _).1 (hQ.2 _ _ _ _ k2 m2)
  have e0 : ∀ p, prodEmb B.cell eA eB (Key.tup [da, db]) (ea * numEntities B.cell.topo db + eb) p =
      Fin.append (eA da ea (p.take da.tupleSum)) (eB db eb ((p.drop da.tupleSum).take db.tupleSum)) := by
    intro p
    change Fin.append (eA da ((ea * numEntities B.cell.topo db + eb) / numEntities B.cell.topo db) _) (eB db ((ea * numEntities B.cell.topo db + eb) % numEntities B.cell.topo db) _) = _
    rw [(div_pair k3).1, (div_pair k3).2]
  rw [map_eq_forall₂]
  change List.Forall₂ _ (la.flatMap fun x => lb.map fun y => x * B.dim + y) ((P da).flatMap fun p => (Q db).map fun q => p ++ q)
  have lenQ : ∀ q ∈ Q db, q.length = db.tupleSum := hQ.1 db
  have lenP : ∀ p ∈ P da, p.length = da.tupleSum := hP.1 da
  refine forall₂_pairs hlA hlB fun x p y q hxp hp hyq hq => ?_
  have hlp := lenP p hp
  obtain ⟨p', hp', hp''⟩ := Option.map_eq_some_iff.1 hxp
  obtain ⟨q', hq', hq''⟩ := Option.map_eq_some_iff.1 hyq
  have hy : y < qs.length := (List.getElem?_eq_some_iff.1 hq').1
  have hlq := lenQ q hq
  have hn : (prodNodes ps qs)[x * B.dim + y]? = some (p' ++ q') := by
    unfold prodNodes
    rw [← hB.nodes_len.1, getElem?_flatMap_const _ _ qs.length (fun a _ => by simp) _ _ hy, hp', Option.bind_some, List.getElem?_map,
      hq']
    rfl
  change ((prodNodes ps qs)[x * B.dim + y]?).map (vecOf : List ℝ → Fin (A.sd + B.sd) → ℝ) = _
  rw [hn, Option.map_some, e0, List.take_left' hlp, List.drop_left' hlp, List.take_of_length_le (by omega), ← hp'', ← hq'']
  congr 1
  have hlen := hA.nodes_len.2 p' (List.mem_of_getElem? hp')
  have := vecOf_append (n := B.sd) (q := q') hlen
  rw [← this.1, ← this.2]
  funext i
  refine Fin.addCases (fun i => ?_) (fun i => ?_) i
  · rw [Fin.append_left]; rfl
  · rw [Fin.append_right]; rfl

/-- C75: flattening keeps the dofs where they are, if the reference points of a product entity depend on its dimension only. -/
theorem flatten_placed {E : TabElem ℝ ℝ} {ids : EntityIds Key} {nodes : List (List ℝ)} {φ : ℕ → MvPolynomial (Fin E.sd) ℝ}
    {emb : Key → ℕ → List ℝ → Fin E.sd → ℝ} (hE : IsC0Element E ids nodes φ emb) {c : CellData ℝ} (hc : IsFlatCell E.cell c)
    {P : Key → List (List ℝ)} (hP : DofsPlaced E ids nodes emb P) {Q : ℕ → List (List ℝ)}
    (hPQ : ∀ d e t, HasEntity E.cell.topo d e t → P d = Q d.tupleSum) (hQ : ∀ d, ∀ p ∈ Q d, p.length = d) :
    DofsPlaced (flatOf E c) (flatIds ids) nodes (flatEmb E.cell.topo emb)
      (fun k => match k with | .int d => Q d | _ => []) := by
  refine ⟨fun d p hp => ?_, fun k i t l ht hl => ?_⟩
  · cases d with
    | int d => exact hQ d p hp
    | nil => exact absurd hp List.not_mem_nil
    | cons a b => exact absurd hp List.not_mem_nil
  · obtain ⟨d, rfl⟩ := hc.flat.ints _ _ _ ht
    obtain ⟨D, e, q1, q2⟩ := (flat_entities hE hc d i t).1 ht
    obtain ⟨D', e', q3, q4⟩ := (flat_dofs hE hc d i l).1 hl
    rw [q1, Option.some.injEq, Prod.mk.injEq] at q3
    obtain ⟨rfl, rfl⟩ := q3
    have h := hP.2 D e t l q2 q4
    have h7 := (unflatten_sound E.cell.topo hE.good.wf.1 hE.good.wf.2 hc.flat.sorted _ _ _ _ q1).1
    rw [hPQ D e t q2, ← h7] at h
    refine h.trans (List.map_congr_left fun p _ => ?_)
    change _ = some ((Dict.get? (computeUnflatteningMap E.cell.topo) (d, i)).elim 0 fun pe => emb pe.1 pe.2 p)
    rw [q1]
    rfl

end FIAT
