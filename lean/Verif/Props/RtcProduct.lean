/-
C76: products of nodal elements, continuous or not.
-/
import Verif.Model.Rtc
import Verif.Props.QLagrange

namespace FIAT
open MvPolynomial

/-- A scalar element with point evaluations at `nodes` as dofs and basis functions `φ 0, φ 1, ...`; `emb d e` maps reference coordinates
of entity `(d, e)` to the cell. -/
structure IsNodalTab (E : TabElem ℝ ℝ) (ids : EntityIds Key) (nodes : List (List ℝ)) (φ : ℕ → MvPolynomial (Fin E.sd) ℝ)
    (emb : Key → ℕ → List ℝ → Fin E.sd → ℝ) : Prop where
  good : GoodCell E.cell
  dim : E.cell.HasDim E.sd
  scalar : E.shape = none
  sd_pos : 1 ≤ E.sd
  wf : Topology.WF ids
  order : InOrder ids
  same : SameEntities E.cell.topo ids
  part : DofsPartition ids E.dim
  nodes_len : nodes.length = E.dim ∧ ∀ p ∈ nodes, p.length = E.sd
  nodal : ∀ (i : ℕ) p, nodes[i]? = some p → ∀ j < E.dim, eval (vecOf p) (φ j) = if i = j then 1 else 0
  tab : ∀ d e t, HasEntity E.cell.topo d e t → ∀ order (pts : List (List ℝ)), (∀ p ∈ pts, p.length = d.tupleSum) →
    ∃ T, E.tabulate order pts (d, e) = some T ∧ (∀ a, (Dict.get? T a).isSome ↔ a.length = E.sd ∧ a.sum ≤ order) ∧
      ∀ a arr, Dict.get? T a = some arr → ∀ x < E.dim, ∀ (j : ℕ) p, pts[j]? = some p →
        arr x 0 j = eval (emb d e p) (iterDeriv a (φ x))

theorem IsC0Element.nodalTab {E : TabElem ℝ ℝ} {ids : EntityIds Key} {nodes : List (List ℝ)} {φ : ℕ → MvPolynomial (Fin E.sd) ℝ}
    {emb : Key → ℕ → List ℝ → Fin E.sd → ℝ} (h : IsC0Element E ids nodes φ emb) : IsNodalTab E ids nodes φ emb :=
  ⟨h.good, h.dim, h.scalar, h.sd_pos, h.wf, h.order, h.same, h.part, h.nodes_len, h.nodal, h.tab⟩

theorem product_nodal {A B : TabElem ℝ ℝ} {idsA idsB : EntityIds Key} {ps qs : List (List ℝ)} {f : ℕ → MvPolynomial (Fin A.sd) ℝ}
    {g : ℕ → MvPolynomial (Fin B.sd) ℝ} {eA : Key → ℕ → List ℝ → Fin A.sd → ℝ} {eB : Key → ℕ → List ℝ → Fin B.sd → ℝ}
    (hA : IsNodalTab A idsA ps f eA) (hB : IsNodalTab B idsB qs g eB) :
    IsNodalTab (productTab A B) (tensorEntityIds B.dim idsA idsB) (prodNodes ps qs) (prodBasis B.dim f g) (prodEmb B.cell eA eB) := by
  have hids := tensor_ids_wf B.dim idsA idsB hA.wf.1 hB.wf.1
  have hlq := hB.nodes_len.1
  refine ⟨tensor_good _ (by simp [hA.good, hB.good]), ?_, rfl, ?_, hids.1, hids.2,
    tensor_same_entities _ _ hA.good hB.good _ _ _ hA.wf hB.wf hA.order hB.order hA.same hB.same,
    tensor_dofs_partition _ _ _ _ hA.wf hB.wf hA.order hB.order hA.part hB.part, ?_, ?_, ?_⟩
  · intro v hv
    obtain ⟨i, hi⟩ := List.getElem?_of_mem hv
    change v ∈ (pyProduct ([A.cell, B.cell].map CellData.verts)).map List.flatten at hv
    obtain ⟨l, hl, rfl⟩ := List.mem_map.1 hv
    rw [mem_pyProduct] at hl
    simp only [List.map_cons, List.map_nil] at hl
    cases hl with
    | cons h1 h2 =>
      cases h2 with
      | cons h3 h4 =>
        cases h4
        simp only [List.flatten_cons, List.flatten_nil, List.append_nil, List.length_append]
        rw [hA.dim _ h1, hB.dim _ h3]
        rfl
  · exact hA.sd_pos.trans (Nat.le_add_right _ _)
  · constructor
    · unfold prodNodes
      rw [List.length_flatMap]
      simp only [List.length_map, List.map_const', List.sum_replicate, smul_eq_mul, hA.nodes_len.1, hB.nodes_len.1]
      rfl
    · intro r hr
      obtain ⟨p, hp, h⟩ := List.mem_flatMap.1 hr
      obtain ⟨q, hq, rfl⟩ := List.mem_map.1 h
      rw [List.length_append, hA.nodes_len.2 p hp, hB.nodes_len.2 q hq]
      rfl
  · intro i r hr j hj
    obtain ⟨p, q, h1, h2, rfl, h3⟩ := prodNodes_get hr
    rw [hlq] at h1 h2 h3
    have hj1 : j / B.dim < A.dim := Nat.div_lt_of_lt_mul (by rw [Nat.mul_comm]; exact hj)
    have hj2 : j % B.dim < B.dim := Nat.mod_lt _ (by omega)
    have hp := hA.nodes_len.2 p (List.mem_of_getElem? h1)
    change eval (vecOf (p ++ q) : Fin (A.sd + B.sd) → ℝ) (prodPoly (f (j / B.dim)) (g (j % B.dim))) = _
    rw [eval_prodPoly, (vecOf_append hp).1, (vecOf_append hp).2, hA.nodal _ _ h1 _ hj1, hB.nodal _ _ h2 _ hj2]
    by_cases h : i = j
    · subst h; simp
    · rw [if_neg h]
      by_cases h5 : i / B.dim = j / B.dim
      · have h7 : ¬ i % B.dim = j % B.dim := by
          intro h6
          apply h
          rw [← Nat.div_add_mod' i B.dim, ← Nat.div_add_mod' j B.dim, h5, h6]
        rw [if_neg h7, mul_zero]
      · rw [if_neg h5, zero_mul]
  · intro D e t ht order pts hpts
    obtain ⟨da, ea, va, db, eb, vb, k1, k2, rfl, rfl, k3, rfl⟩ := pair_factors hA.good hB.good ht
    have hts : (Key.tup [da, db]).tupleSum = da.tupleSum + db.tupleSum := by
      simp [Key.tup, Key.tupleSum]
    rw [hts] at hpts
    obtain ⟨TA, a1, a2, a3⟩ := hA.tab da ea va k1 order (pts.map fun p => p.take da.tupleSum) (by
      intro p hp; obtain ⟨q, hq, rfl⟩ := List.mem_map.1 hp
      rw [List.length_take, hpts q hq]; omega)
    obtain ⟨TB, b1, b2, b3⟩ := hB.tab db eb vb k2 order (pts.map fun p => (p.drop da.tupleSum).take db.tupleSum) (by
      intro p hp; obtain ⟨q, hq, rfl⟩ := List.mem_map.1 hp
      rw [List.length_take, List.length_drop, hpts q hq]; omega)
    obtain ⟨R, r1, r2, r3⟩ := tensor_tabulate_arrays A B (hA.sd_pos.trans (Nat.le_add_right _ _)) order pts da db ea eb va vb hA.good hB.good
      k1 k2 TA TB a1 b1 (fun a h1 h2 => Option.isSome_iff_exists.1 ((a2 a).2 ⟨h1, h2⟩))
      (fun a h1 h2 => Option.isSome_iff_exists.1 ((b2 a).2 ⟨h1, h2⟩))
      (fun a b => let ⟨arr, h, _⟩ := tensor_array_scalar A B hA.scalar hB.scalar a b; ⟨arr, h⟩)
    refine ⟨R, r1, r2, fun a arr harr x hx j p hp => ?_⟩
    obtain ⟨tA, tB, t1, t2, t3⟩ := r3 a arr harr
    obtain ⟨arr', u1, -, u3⟩ := tensor_array_scalar A B hA.scalar hB.scalar tA tB
    obtain rfl : arr' = arr := Option.some.inj (u1.symm.trans t3)
    obtain ⟨hlen, hsum⟩ := (r2 a).1 (by rw [harr]; rfl)
    have hdB : 0 < B.dim := by
      rcases Nat.eq_zero_or_pos B.dim with h0 | h0
      · change x < A.dim * B.dim at hx; rw [h0] at hx; simp at hx
      · exact h0
    have hx1 : x / B.dim < A.dim := Nat.div_lt_of_lt_mul (by rw [Nat.mul_comm]; exact hx)
    have hx2 : x % B.dim < B.dim := Nat.mod_lt _ hdB
    have hxx : x = x / B.dim * B.dim + x % B.dim := (Nat.div_add_mod' x B.dim).symm
    have e0 : prodEmb B.cell eA eB (Key.tup [da, db]) (ea * numEntities B.cell.topo db + eb) p =
        Fin.append (eA da ea (p.take da.tupleSum)) (eB db eb ((p.drop da.tupleSum).take db.tupleSum)) := by
      change Fin.append (eA da ((ea * numEntities B.cell.topo db + eb) / numEntities B.cell.topo db) _) (eB db ((ea * numEntities B.cell.topo db + eb) % numEntities B.cell.topo db) _) = _
      rw [(div_pair k3).1, (div_pair k3).2]
    rw [e0]
    conv_lhs => rw [hxx]
    rw [u3 _ _ 0 j hx2, a3 _ _ t1 _ hx1 j (p.take da.tupleSum) (by rw [List.getElem?_map, hp]; rfl),
      b3 _ _ t2 _ hx2 j ((p.drop da.tupleSum).take db.tupleSum) (by rw [List.getElem?_map, hp]; rfl)]
    change _ = eval _ (iterDeriv a (prodPoly (f (x / B.dim)) (g (x % B.dim))))
    rw [iterDeriv_prodPoly _ _ a hlen, eval_prodPoly]
    congr 2
    · congr 1; funext i; simp
    · congr 1; funext i; simp

end FIAT
