/-
C75: neighbouring quadrilaterals and hexahedra.
-/
import Verif.Props.QElement
import Verif.Lemmas.CubeTopology

namespace FIAT
open MvPolynomial

/-- Specification: the map from the reference entity `(d, e)` is a combination of the vertices of the entity, with weights that depend
on the dimension only. -/
def EmbWeights (E : TabElem ℝ ℝ) (emb : Key → ℕ → List ℝ → Fin E.sd → ℝ) (W : Key → List ℝ → List ℝ) : Prop :=
  ∀ d e t p, HasEntity E.cell.topo d e t → p.length = d.tupleSum → (W d p).length = t.length ∧ (W d p).sum = 1 ∧
    ∀ i : Fin E.sd, emb d e p i = (List.zipWith (fun w a => w * E.cell.coord a i) (W d p) t).sum

/-- Weights of a product. -/
noncomputable def prodWeights (V W : Key → List ℝ → List ℝ) : Key → List ℝ → List ℝ
  | .cons da (.cons db .nil), p => (V da (p.take da.tupleSum)).flatMap fun v =>
      (W db ((p.drop da.tupleSum).take db.tupleSum)).map fun w => v * w
  | _, _ => []

theorem zipWith_pairs (wa wb : List ℝ) (va vb : List ℕ) (n : ℕ) (hb : wb.length = vb.length) (F : ℕ → ℝ) (G H : ℕ → ℝ)
    (hF : ∀ a ∈ va, ∀ b ∈ vb, F (a * n + b) = G a * H b) :
    (List.zipWith (fun w x => w * F x) (wa.flatMap fun v => wb.map fun w => v * w) (va.flatMap fun a => vb.map fun b => a * n + b)).sum =
      (List.zipWith (fun w a => w * G a) wa va).sum * (List.zipWith (fun w b => w * H b) wb vb).sum := by
  have inner : ∀ (w : ℝ) (a : ℕ) (wb : List ℝ) (vb : List ℕ), wb.length = vb.length → (∀ b ∈ vb, F (a * n + b) = G a * H b) →
      (List.zipWith (fun w x => w * F x) (wb.map fun y => w * y) (vb.map fun b => a * n + b)).sum =
        w * G a * (List.zipWith (fun w b => w * H b) wb vb).sum := by
    intro w a wb
    induction wb with
    | nil => intro vb _ _; simp
    | cons y wb ih =>
      intro vb hl h
      cases vb with
      | nil => simp at hl
      | cons b vb =>
        simp only [List.map_cons, List.zipWith_cons_cons, List.sum_cons]
        rw [ih vb (by simpa using hl) (fun b hb => h b (List.mem_cons_of_mem _ hb)), h b List.mem_cons_self]
        ring
  induction wa generalizing va with
  | nil => simp
  | cons w wa ih =>
    cases va with
    | nil => simp
    | cons a va =>
      rw [List.flatMap_cons, List.flatMap_cons, List.zipWith_append (by simp [hb]), List.sum_append,
        inner w a wb vb hb (hF a List.mem_cons_self), ih va (fun a ha => hF a (List.mem_cons_of_mem _ ha)), List.zipWith_cons_cons,
        List.sum_cons]
      ring

theorem zipWith_one (w : List ℝ) (v : List ℕ) (h : w.length = v.length) : (List.zipWith (fun w _ => w * (1 : ℝ)) w v).sum = w.sum := by
  induction w generalizing v with
  | nil => simp
  | cons a w ih =>
    cases v with
    | nil => simp at h
    | cons b v => rw [List.zipWith_cons_cons, List.sum_cons, List.sum_cons, ih v (by simpa using h), mul_one]

theorem product_weights {A B : TabElem ℝ ℝ} {idsA idsB : EntityIds Key} {ps qs : List (List ℝ)} {f : ℕ → MvPolynomial (Fin A.sd) ℝ}
    {g : ℕ → MvPolynomial (Fin B.sd) ℝ} {eA : Key → ℕ → List ℝ → Fin A.sd → ℝ} {eB : Key → ℕ → List ℝ → Fin B.sd → ℝ}
    (hA : IsC0Element A idsA ps f eA) (hB : IsC0Element B idsB qs g eB) {V W : Key → List ℝ → List ℝ} (hV : EmbWeights A eA V)
    (hW : EmbWeights B eB W) : EmbWeights (productTab A B) (prodEmb B.cell eA eB) (prodWeights V W) := by
  intro D e t p ht hp
  obtain ⟨da, ea, va, db, eb, vb, k1, k2, rfl, rfl, k3, rfl⟩ := pair_factors hA.good hB.good ht
  have hts : (Key.tup [da, db]).tupleSum = da.tupleSum + db.tupleSum := by simp [Key.tup, Key.tupleSum]
  rw [hts] at hp
  have e0 : prodEmb B.cell eA eB (Key.tup [da, db]) (ea * numEntities B.cell.topo db + eb) p =
      Fin.append (eA da ea (p.take da.tupleSum)) (eB db eb ((p.drop da.tupleSum).take db.tupleSum)) := by
    change Fin.append (eA da ((ea * numEntities B.cell.topo db + eb) / numEntities B.cell.topo db) _) (eB db ((ea * numEntities B.cell.topo db + eb) % numEntities B.cell.topo db) _) = _
    rw [(div_pair k3).1, (div_pair k3).2]
  obtain ⟨a1, a2, a3⟩ := hV da ea va (p.take da.tupleSum) k1 (by rw [List.length_take]; omega)
  obtain ⟨b1, b2, b3⟩ := hW db eb vb ((p.drop da.tupleSum).take db.tupleSum) k2 (by rw [List.length_take, List.length_drop]; omega)
  change ((V da (p.take da.tupleSum)).flatMap fun v => (W db ((p.drop da.tupleSum).take db.tupleSum)).map fun w => v * w).length = _ ∧
    ((V da (p.take da.tupleSum)).flatMap fun v => (W db ((p.drop da.tupleSum).take db.tupleSum)).map fun w => v * w).sum = 1 ∧
    ∀ i : Fin (A.sd + B.sd), prodEmb B.cell eA eB (Key.tup [da, db]) (ea * numEntities B.cell.topo db + eb) p i = (List.zipWith (fun w a =>
      w * (tensorProductCell [A.cell, B.cell]).coord a i) ((V da (p.take da.tupleSum)).flatMap fun v =>
        (W db ((p.drop da.tupleSum).take db.tupleSum)).map fun w => v * w) _).sum
  rw [e0]
  have hlA : ∀ a ∈ va, a < A.cell.verts.length := hA.good.vertex_lt _ _ _ k1
  have hlB : ∀ b ∈ vb, b < B.cell.verts.length := hB.good.vertex_lt _ _ _ k2
  generalize V da (p.take da.tupleSum) = wa at a1 a2 a3 ⊢
  generalize W db ((p.drop da.tupleSum).take db.tupleSum) = wb at b1 b2 b3 ⊢
  have hlen : (wa.flatMap fun v => wb.map fun w => v * w).length = (va.flatMap fun a => vb.map fun b => a * B.cell.verts.length + b).length := by
    simp [List.length_flatMap, a1, b1]
  refine ⟨hlen, ?_, fun i => ?_⟩
  · have h := zipWith_pairs wa wb va vb B.cell.verts.length b1 (fun _ => 1) (fun _ => 1) (fun _ => 1) (fun _ _ _ _ => by simp)
    rwa [zipWith_one _ _ hlen, zipWith_one _ _ a1, zipWith_one _ _ b1, a2, b2, mul_one] at h
  · refine Fin.addCases (fun i => ?_) (fun i => ?_) i
    · rw [Fin.append_left, a3]
      rw [zipWith_pairs wa wb va vb B.cell.verts.length b1 _ (fun a => A.cell.coord a i) (fun _ => 1) (fun a ha b hb => by
        rw [(coord_prod (n := B.sd) hA.dim (hlA a ha) (hlB b hb)).1 i, mul_one])]
      rw [zipWith_one _ _ b1, b2, mul_one]
    · rw [Fin.append_right, b3]
      rw [zipWith_pairs wa wb va vb B.cell.verts.length b1 _ (fun _ => 1) (fun b => B.cell.coord b i) (fun a ha b hb => by
        rw [(coord_prod (n := B.sd) hA.dim (hlA a ha) (hlB b hb)).2 i, one_mul])]
      rw [zipWith_one _ _ a1, a2, one_mul]

theorem flatten_weights {E : TabElem ℝ ℝ} {ids : EntityIds Key} {nodes : List (List ℝ)} {φ : ℕ → MvPolynomial (Fin E.sd) ℝ}
    {emb : Key → ℕ → List ℝ → Fin E.sd → ℝ} (hE : IsC0Element E ids nodes φ emb) {c : CellData ℝ} (hc : IsFlatCell E.cell c)
    {W : Key → List ℝ → List ℝ} (hW : EmbWeights E emb W) {W' : ℕ → List ℝ → List ℝ}
    (hWW : ∀ d e t p, HasEntity E.cell.topo d e t → p.length = d.tupleSum → W d p = W' d.tupleSum p) :
    EmbWeights (flatOf E c) (flatEmb E.cell.topo emb) (fun k => match k with | .int d => W' d | _ => fun _ => []) := by
  intro k i t p ht hp
  obtain ⟨d, rfl⟩ := hc.flat.ints _ _ _ ht
  obtain ⟨D, e, q1, q2⟩ := (flat_entities hE hc d i t).1 ht
  have h7 := (unflatten_sound E.cell.topo hE.good.wf.1 hE.good.wf.2 hc.flat.sorted _ _ _ _ q1).1
  change p.length = d at hp
  obtain ⟨h1, h2, h3⟩ := hW D e t p q2 (by rw [hp, h7])
  rw [hWW D e t p q2 (by rw [hp, h7]), ← h7] at h1 h2 h3
  refine ⟨h1, h2, fun j => ?_⟩
  have hco : (flatOf E c).cell.coord = E.cell.coord := by
    funext a i
    change c.coord a i = _
    unfold CellData.coord
    rw [hc.verts]
  rw [hco]
  refine Eq.trans ?_ (h3 j)
  change ((Dict.get? (computeUnflatteningMap E.cell.topo) (d, i)).elim 0 fun pe => emb pe.1 pe.2 p) j = _
  rw [q1]
  rfl

end FIAT
