/-
C75: nested tensor products of continuous elements.
-/
import Verif.Model.QuadElement
import Verif.Props.LagrangeTrace

namespace FIAT
open MvPolynomial

/-- A point given as a list. -/
def vecOf {n : ℕ} (p : List ℝ) : Fin n → ℝ := fun i => (p[(i : ℕ)]?).getD 0

/-- Specification of a continuous scalar element `E` with point evaluations at `nodes` as dofs, numbered by `ids`, and basis functions
`φ 0, φ 1, ...`; `emb d e` maps reference coordinates of entity `(d, e)` to the cell. -/
structure IsC0Element (E : TabElem ℝ ℝ) (ids : EntityIds Key) (nodes : List (List ℝ)) (φ : ℕ → MvPolynomial (Fin E.sd) ℝ)
    (emb : Key → ℕ → List ℝ → Fin E.sd → ℝ) : Prop where
  good : GoodCell E.cell
  dim : E.cell.HasDim E.sd
  scalar : E.shape = none
  sd_pos : 1 ≤ E.sd
  wf : Topology.WF ids
  order : InOrder ids
  same : SameEntities E.cell.topo ids
  part : DofsPartition ids E.dim
  /-- there is one node for each basis function, and the basis is dual to the nodes -/
  nodes_len : nodes.length = E.dim ∧ ∀ p ∈ nodes, p.length = E.sd
  nodal : ∀ (i : ℕ) p, nodes[i]? = some p → ∀ j < E.dim, eval (vecOf p) (φ j) = if i = j then 1 else 0
  /-- the node of a dof lies on the entity of the dof -/
  node_on : ∀ d e t l, HasEntity E.cell.topo d e t → ids.at? d e = some l → ∀ i ∈ l, ∀ p, nodes[i]? = some p →
    OnHull E.cell t (vecOf p : Fin E.sd → ℝ)
  trace : TraceDofs E.cell E.sd E.dim ids φ
  emb_on : ∀ d e t p, HasEntity E.cell.topo d e t → OnHull E.cell t (emb d e p)
  /-- `tabulate(order, pts, (d, e))` gives all partial derivatives at the images of the points -/
  tab : ∀ d e t, HasEntity E.cell.topo d e t → ∀ order (pts : List (List ℝ)), (∀ p ∈ pts, p.length = d.tupleSum) →
    ∃ T, E.tabulate order pts (d, e) = some T ∧ (∀ a, (Dict.get? T a).isSome ↔ a.length = E.sd ∧ a.sum ≤ order) ∧
      ∀ a arr, Dict.get? T a = some arr → ∀ x < E.dim, ∀ (j : ℕ) p, pts[j]? = some p →
        arr x 0 j = eval (emb d e p) (iterDeriv a (φ x))

/-- The map from a product of reference entities. -/
def prodEmb {m n : ℕ} (cB : CellData ℝ) (f : Key → ℕ → List ℝ → Fin m → ℝ) (g : Key → ℕ → List ℝ → Fin n → ℝ) :
    Key → ℕ → List ℝ → Fin (m + n) → ℝ
  | .cons da (.cons db .nil), i, p => Fin.append (f da (i / numEntities cB.topo db) (p.take da.tupleSum))
      (g db (i % numEntities cB.topo db) ((p.drop da.tupleSum).take db.tupleSum))
  | _, _, _ => 0

/-- The nodes of a product. -/
def prodNodes (ps qs : List (List ℝ)) : List (List ℝ) := ps.flatMap fun p => qs.map fun q => p ++ q

theorem prodNodes_get {ps qs : List (List ℝ)} {i : ℕ} {r : List ℝ} (h : (prodNodes ps qs)[i]? = some r) :
    ∃ p q, ps[i / qs.length]? = some p ∧ qs[i % qs.length]? = some q ∧ r = p ++ q ∧ i % qs.length < qs.length := by
  have hlen : (prodNodes ps qs).length = ps.length * qs.length := by
    unfold prodNodes
    rw [List.length_flatMap]
    simp
  have hi := (List.getElem?_eq_some_iff.1 h).1
  have hpos : 0 < qs.length := by
    rcases Nat.eq_zero_or_pos qs.length with h0 | h0
    · rw [hlen, h0] at hi; simp at hi
    · exact h0
  have hm := Nat.mod_lt i hpos
  rw [← Nat.div_add_mod' i qs.length] at h
  unfold prodNodes at h
  rw [getElem?_flatMap_const _ _ qs.length (fun a _ => by simp) _ _ hm] at h
  obtain ⟨p, h1, h2⟩ := Option.bind_eq_some_iff.1 h
  rw [List.getElem?_map] at h2
  obtain ⟨q, h3, h4⟩ := Option.map_eq_some_iff.1 h2
  exact ⟨p, q, h1, h3, h4.symm, hm⟩

theorem pair_factors {cA cB : CellData ℝ} (gA : GoodCell cA) (gB : GoodCell cB) {D : Key} {e : ℕ} {t : List ℕ}
    (h : HasEntity (tensorProductCell [cA, cB]).topo D e t) :
    ∃ da ea va db eb vb, HasEntity cA.topo da ea va ∧ HasEntity cB.topo db eb vb ∧ D = Key.tup [da, db] ∧
      e = ea * numEntities cB.topo db + eb ∧ eb < numEntities cB.topo db ∧
      t = va.flatMap fun a => vb.map fun b => a * cB.verts.length + b := by
  obtain ⟨F, hF, rfl, -, he, rfl⟩ := tensor_entity_conv [cA, cB] (by simp [gA, gB]) _ _ _ h
  obtain ⟨fa, hfa, F, hF', rfl⟩ : ∃ f, HasEntity cA.topo f.dim f.ent f.vs ∧ ∃ F', IsFactors [cB] F' ∧ F = f :: F' := by
    cases hF with | @cons _ f _ F' q1 q2 => exact ⟨f, q1, F', q2, rfl⟩
  obtain ⟨fb, hfb, rfl⟩ : ∃ f, HasEntity cB.topo f.dim f.ent f.vs ∧ F = [f] := by
    cases hF' with | @cons _ f _ F' q1 q2 => cases q2; exact ⟨f, q1, rfl⟩
  refine ⟨fa.dim, fa.ent, fa.vs, fb.dim, fb.ent, fb.vs, hfa, hfb, rfl, by rw [he]; simp [ravel, eshape], ?_,
    productVerts_pair cA cB fa.dim fb.dim fa.ent fb.ent fa.vs fb.vs⟩
  obtain ⟨es, a1, a2⟩ := hfb
  have h5 : fb.ent ∈ pySorted (Dict.keys es) := by
    rw [mem_pySorted]
    exact Dict.get?_isSome_iff.1 (by rw [a2]; rfl)
  rw [gB.numbered _ _ (Dict.mem_of_get? a1), List.mem_range] at h5
  unfold numEntities
  rw [a1]; exact h5

theorem div_pair {N x y : ℕ} (hy : y < N) : (x * N + y) / N = x ∧ (x * N + y) % N = y := by
  constructor
  · rw [Nat.mul_comm, Nat.mul_add_div (by omega), Nat.div_eq_of_lt hy, Nat.add_zero]
  · rw [Nat.add_comm, Nat.add_mul_mod_self_right, Nat.mod_eq_of_lt hy]

theorem vecOf_append {m n : ℕ} {p q : List ℝ} (hp : p.length = m) :
    (vecOf (p ++ q) : Fin (m + n) → ℝ) ∘ Fin.castAdd n = vecOf p ∧ (vecOf (p ++ q) : Fin (m + n) → ℝ) ∘ Fin.natAdd m = vecOf q := by
  constructor
  · funext i
    simp only [vecOf, Function.comp, Fin.val_castAdd]
    rw [List.getElem?_append_left (by rw [hp]; exact i.2)]
  · funext i
    simp only [vecOf, Function.comp, Fin.val_natAdd]
    rw [List.getElem?_append_right (by omega), hp, Nat.add_sub_cancel_left]

/-- C75: the tensor product of two continuous elements is a continuous element on the product cell; in particular the construction can
be nested. -/
theorem product_c0 {A B : TabElem ℝ ℝ} {idsA idsB : EntityIds Key} {ps qs : List (List ℝ)} {f : ℕ → MvPolynomial (Fin A.sd) ℝ}
    {g : ℕ → MvPolynomial (Fin B.sd) ℝ} {eA : Key → ℕ → List ℝ → Fin A.sd → ℝ} {eB : Key → ℕ → List ℝ → Fin B.sd → ℝ}
    (hA : IsC0Element A idsA ps f eA) (hB : IsC0Element B idsB qs g eB) :
    IsC0Element (productTab A B) (tensorEntityIds B.dim idsA idsB) (prodNodes ps qs) (prodBasis B.dim f g) (prodEmb B.cell eA eB) := by
  have hids := tensor_ids_wf B.dim idsA idsB hA.wf.1 hB.wf.1
  have hlq := hB.nodes_len.1
  refine ⟨tensor_good _ (by simp [hA.good, hB.good]), ?_, rfl, ?_, hids.1, hids.2,
    tensor_same_entities _ _ hA.good hB.good _ _ _ hA.wf hB.wf hA.order hB.order hA.same hB.same,
    tensor_dofs_partition _ _ _ _ hA.wf hB.wf hA.order hB.order hA.part hB.part, ?_, ?_, ?_,
    tensor_trace_dofs hA.good hB.good hA.dim hA.wf hB.wf hA.order hB.order hA.same hB.same hA.part hB.part hA.trace hB.trace, ?_, ?_⟩
  · intro v hv
    obtain ⟨i, hi⟩ := List.getElem?_of_mem hv
    change v ∈ (pyProduct ([A.cell, B.cell].map CellData.verts)).map List.flatten at hv
    obtain ⟨l, hl, rfl⟩ := List.mem_map.1 hv
    rw [mem_pyProduct] at hl
    simp only [List.map_cons, List.map_nil] at hl
    cases hl with
    | cons h1 h2 =>
      cases h2 with
      | cons h3 h4 =>
        cases h4
        simp only [List.flatten_cons, List.flatten_nil, List.append_nil, List.length_append]
        rw [hA.dim _ h1, hB.dim _ h3]
        rfl
  · exact hA.sd_pos.trans (Nat.le_add_right _ _)
  · constructor
    · unfold prodNodes
      rw [List.length_flatMap]
      simp only [List.length_map, List.map_const', List.sum_replicate, smul_eq_mul, hA.nodes_len.1, hB.nodes_len.1]
      rfl
    · intro r hr
      obtain ⟨p, hp, h⟩ := List.mem_flatMap.1 hr
      obtain ⟨q, hq, rfl⟩ := List.mem_map.1 h
      rw [List.length_append, hA.nodes_len.2 p hp, hB.nodes_len.2 q hq]
      rfl
  · intro i r hr j hj
    obtain ⟨p, q, h1, h2, rfl, h3⟩ := prodNodes_get hr
    rw [hlq] at h1 h2 h3
    have hj1 : j / B.dim < A.dim := Nat.div_lt_of_lt_mul (by rw [Nat.mul_comm]; exact hj)
    have hj2 : j % B.dim < B.dim := Nat.mod_lt _ (by omega)
    have hp := hA.nodes_len.2 p (List.mem_of_getElem? h1)
    change eval (vecOf (p ++ q) : Fin (A.sd + B.sd) → ℝ) (prodPoly (f (j / B.dim)) (g (j % B.dim))) = _
    rw [eval_prodPoly, (vecOf_append hp).1, (vecOf_append hp).2, hA.nodal _ _ h1 _ hj1, hB.nodal _ _ h2 _ hj2]
    by_cases h : i = j
    · subst h; simp
    · rw [if_neg h]
      by_cases h5 : i / B.dim = j / B.dim
      · have h7 : ¬ i % B.dim = j % B.dim := by
          intro h6
          apply h
          rw [← Nat.div_add_mod' i B.dim, ← Nat.div_add_mod' j B.dim, h5, h6]
        rw [if_neg h7, mul_zero]
      · rw [if_neg h5, zero_mul]
  · intro D e t l ht hl i hi r hr
    obtain ⟨p, q, h1, h2, rfl, h3⟩ := prodNodes_get hr
    rw [hlq] at h1 h2 h3
    have hp := hA.nodes_len.2 p (List.mem_of_getElem? h1)
    obtain ⟨da, ea, va, db, eb, vb, k1, k2, rfl, rfl, k3, rfl⟩ := pair_factors hA.good hB.good ht
    refine (onHull_prod hA.dim (hA.good.vertex_lt _ _ _ k1) (hB.good.vertex_lt _ _ _ k2) (vecOf (p ++ q) : Fin (A.sd + B.sd) → ℝ)).2 ?_
    rw [(vecOf_append hp).1, (vecOf_append hp).2]
    obtain ⟨da', db', ea', eb', la, lb, hD, m1, m2, m3, rfl⟩ := (tensor_dofs_at _ _ _ hA.wf hB.wf hA.order hB.order _ _ _).1 hl
    have hD' := Key.tup_injective hD
    simp only [List.cons.injEq, and_true] at hD'
    obtain ⟨rfl, rfl⟩ := hD'
    rw [numListed_eq hB.good.wf hB.wf hB.same m2] at m3
    obtain ⟨vb', hvb'⟩ := (hB.same _ _).1 (by rw [m2]; rfl)
    have hlt : eb' < numEntities B.cell.topo db := by
      obtain ⟨es, a1, a2⟩ := hvb'
      have h5 : eb' ∈ pySorted (Dict.keys es) := by
        rw [mem_pySorted]
        exact Dict.get?_isSome_iff.1 (by rw [a2]; rfl)
      rw [hB.good.numbered _ _ (Dict.mem_of_get? a1), List.mem_range] at h5
      unfold numEntities
      rw [a1]; exact h5
    obtain ⟨rfl, rfl⟩ := pair_index k3 hlt m3
    obtain ⟨x, hx, y, hy, rfl⟩ := mem_prodDofs.1 hi
    have hyB := (hB.part.1 _ _ _ m2).2 _ hy
    rw [(div_pair hyB).1] at h1
    rw [(div_pair hyB).2] at h2
    exact ⟨hA.node_on _ _ _ _ k1 m1 _ hx _ h1, hB.node_on _ _ _ _ k2 m2 _ hy _ h2⟩
  · intro D e t p ht
    obtain ⟨da, ea, va, db, eb, vb, k1, k2, rfl, rfl, k3, rfl⟩ := pair_factors hA.good hB.good ht
    refine (onHull_prod hA.dim (hA.good.vertex_lt _ _ _ k1) (hB.good.vertex_lt _ _ _ k2) _).2 ?_
    have e0 : prodEmb B.cell eA eB (Key.tup [da, db]) (ea * numEntities B.cell.topo db + eb) p =
        Fin.append (eA da ea (p.take da.tupleSum)) (eB db eb ((p.drop da.tupleSum).take db.tupleSum)) := by
      change Fin.append (eA da ((ea * numEntities B.cell.topo db + eb) / numEntities B.cell.topo db) _) (eB db ((ea * numEntities B.cell.topo db + eb) % numEntities B.cell.topo db) _) = _
      rw [(div_pair k3).1, (div_pair k3).2]
    rw [e0]
    have e1 : (Fin.append (eA da ea (p.take da.tupleSum)) (eB db eb ((p.drop da.tupleSum).take db.tupleSum))) ∘ Fin.castAdd B.sd =
        eA da ea (p.take da.tupleSum) := by funext i; simp
    have e2 : (Fin.append (eA da ea (p.take da.tupleSum)) (eB db eb ((p.drop da.tupleSum).take db.tupleSum))) ∘ Fin.natAdd A.sd =
        eB db eb ((p.drop da.tupleSum).take db.tupleSum) := by funext i; simp
    rw [e1, e2]
    exact ⟨hA.emb_on _ _ _ _ k1, hB.emb_on _ _ _ _ k2⟩
  · intro D e t ht order pts hpts
    obtain ⟨da, ea, va, db, eb, vb, k1, k2, rfl, rfl, k3, rfl⟩ := pair_factors hA.good hB.good ht
    have hts : (Key.tup [da, db]).tupleSum = da.tupleSum + db.tupleSum := by
      simp [Key.tup, Key.tupleSum]
    rw [hts] at hpts
    obtain ⟨TA, a1, a2, a3⟩ := hA.tab da ea va k1 order (pts.map fun p => p.take da.tupleSum) (by
      intro p hp; obtain ⟨q, hq, rfl⟩ := List.mem_map.1 hp
      rw [List.length_take, hpts q hq]; omega)
    obtain ⟨TB, b1, b2, b3⟩ := hB.tab db eb vb k2 order (pts.map fun p => (p.drop da.tupleSum).take db.tupleSum) (by
      intro p hp; obtain ⟨q, hq, rfl⟩ := List.mem_map.1 hp
      rw [List.length_take, List.length_drop, hpts q hq]; omega)
    obtain ⟨R, r1, r2, r3⟩ := tensor_tabulate_arrays A B (hA.sd_pos.trans (Nat.le_add_right _ _)) order pts da db ea eb va vb hA.good hB.good
      k1 k2 TA TB a1 b1 (fun a h1 h2 => Option.isSome_iff_exists.1 ((a2 a).2 ⟨h1, h2⟩))
      (fun a h1 h2 => Option.isSome_iff_exists.1 ((b2 a).2 ⟨h1, h2⟩))
      (fun a b => let ⟨arr, h, _⟩ := tensor_array_scalar A B hA.scalar hB.scalar a b; ⟨arr, h⟩)
    refine ⟨R, r1, r2, fun a arr harr x hx j p hp => ?_⟩
    obtain ⟨tA, tB, t1, t2, t3⟩ := r3 a arr harr
    obtain ⟨arr', u1, -, u3⟩ := tensor_array_scalar A B hA.scalar hB.scalar tA tB
    obtain rfl : arr' = arr := Option.some.inj (u1.symm.trans t3)
    obtain ⟨hlen, hsum⟩ := (r2 a).1 (by rw [harr]; rfl)
    have hdB : 0 < B.dim := by
      rcases Nat.eq_zero_or_pos B.dim with h0 | h0
      · change x < A.dim * B.dim at hx; rw [h0] at hx; simp at hx
      · exact h0
    have hx1 : x / B.dim < A.dim := Nat.div_lt_of_lt_mul (by rw [Nat.mul_comm]; exact hx)
    have hx2 : x % B.dim < B.dim := Nat.mod_lt _ hdB
    have hxx : x = x / B.dim * B.dim + x % B.dim := (Nat.div_add_mod' x B.dim).symm
    have e0 : prodEmb B.cell eA eB (Key.tup [da, db]) (ea * numEntities B.cell.topo db + eb) p =
        Fin.append (eA da ea (p.take da.tupleSum)) (eB db eb ((p.drop da.tupleSum).take db.tupleSum)) := by
      change Fin.append (eA da ((ea * numEntities B.cell.topo db + eb) / numEntities B.cell.topo db) _) (eB db ((ea * numEntities B.cell.topo db + eb) % numEntities B.cell.topo db) _) = _
      rw [(div_pair k3).1, (div_pair k3).2]
    rw [e0]
    conv_lhs => rw [hxx]
    rw [u3 _ _ 0 j hx2, a3 _ _ t1 _ hx1 j (p.take da.tupleSum) (by rw [List.getElem?_map, hp]; rfl),
      b3 _ _ t2 _ hx2 j ((p.drop da.tupleSum).take db.tupleSum) (by rw [List.getElem?_map, hp]; rfl)]
    change _ = eval _ (iterDeriv a (prodPoly (f (x / B.dim)) (g (x % B.dim))))
    rw [iterDeriv_prodPoly _ _ a hlen, eval_prodPoly]
    congr 2
    · congr 1; funext i; simp
    · congr 1; funext i; simp

/-- C75: the dual set of a product of elements with point evaluations is the point evaluations at the pairs. -/
theorem tensorNodes_points (sd : ℕ) (ps qs : List (List ℝ)) :
    tensorNodes sd (ps.map pointNode) (qs.map pointNode) = some ((prodNodes ps qs).map fun r => (pointNode r).fn) := by
  have inner : ∀ (p : List ℝ) (qs : List (List ℝ)) (s : List (Functional ℝ (List ℝ))),
      (qs.map pointNode).foldlM (fun (nodes : List (Functional ℝ (List ℝ))) B => do
        let n ← tensorNode sd (pointNode p) B
        some (nodes ++ [n])) s = some (s ++ qs.map fun q => (pointNode (p ++ q)).fn) := by
    intro p qs
    induction qs with
    | nil => intro s; simp
    | cons q qs ih =>
      intro s
      rw [List.map_cons, List.foldlM_cons]
      have : tensorNode sd (pointNode p) (pointNode q) = some (pointNode (p ++ q)).fn := by
        simp [tensorNode, pointNode, firstPair]
      rw [this]
      refine (ih _).trans ?_
      simp
  have outer : ∀ (ps : List (List ℝ)) (s : List (Functional ℝ (List ℝ))),
      (ps.map pointNode).foldlM (fun nodes A => (qs.map pointNode).foldlM (fun (nodes : List (Functional ℝ (List ℝ))) B => do
        let n ← tensorNode sd A B
        some (nodes ++ [n])) nodes) s = some (s ++ (prodNodes ps qs).map fun r => (pointNode r).fn) := by
    intro ps
    induction ps with
    | nil => intro s; simp [prodNodes]
    | cons p ps ih =>
      intro s
      rw [List.map_cons, List.foldlM_cons, inner]
      refine (ih _).trans ?_
      simp [prodNodes, Function.comp_def]
  exact outer ps []

end FIAT
