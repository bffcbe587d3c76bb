/-
Concrete cases that meet the hypotheses of the general theorems on cells, dof layouts and tabulation (C05, C06, C17, C21, C69).
-/
import Verif.Props.Ciarlet
import Verif.Props.EntityTabulate

namespace FIAT
open MvPolynomial

/-- The reference tetrahedron. -/
noncomputable abbrev exTet : SimplexCell (Fin 3 → ℝ) := (ufcTetrahedron : CellData ℝ).toSimplex 3

theorem exTet_proper : ProperSimplex ℝ exTet := proper_ufcTetrahedron

theorem exTet_entities : HasEntity exTet.topo 2 0 [1, 2, 3] ∧ HasEntity exTet.topo 1 0 [2, 3] ∧ HasEntity exTet.topo 1 3 [0, 3] ∧
    HasEntity exTet.topo 0 1 [1] := by
  have h : HasEntity ((ufcTetrahedron : CellData ℤ).toSimplex 3).topo 2 0 [1, 2, 3] ∧ HasEntity ((ufcTetrahedron : CellData ℤ).toSimplex 3).topo 1 0 [2, 3] ∧
      HasEntity ((ufcTetrahedron : CellData ℤ).toSimplex 3).topo 1 3 [0, 3] ∧ HasEntity ((ufcTetrahedron : CellData ℤ).toSimplex 3).topo 0 1 [1] := by
    unfold HasEntity
    refine ⟨⟨_, rfl, rfl⟩, ⟨_, rfl, rfl⟩, ⟨_, rfl, rfl⟩, ⟨_, rfl, rfl⟩⟩
  exact h

/-- C05: face 0 of the tetrahedron contains edge 0 and not edge 3. -/
example : ∃ l, ((subEntities exTet.topo).get? 2).bind (fun m => m.get? 0) = some l ∧ toLex (1, 0) ∈ l ∧ toLex (1, 3) ∉ l := by
  obtain ⟨l, h1, -, -, h2⟩ := sub_entities_spec exTet_proper.2.1.wf exTet_entities.1
  refine ⟨l, h1, (h2 1 0).2 ⟨_, exTet_entities.2.1, by simp⟩, fun h => ?_⟩
  obtain ⟨v, hv, hm⟩ := (h2 1 3).1 h
  rw [hasEntity_unique hv exTet_entities.2.2.1] at hm
  exact absurd (hm 0 (by simp)) (by simp)

/-- C05: the edges of the faces, through `connectivity`. -/
example : ∃ L es, (connectivity exTet.topo).get? (2, 1) = some L ∧ exTet.topo.get? 2 = some es ∧ L.length = 4 := by
  obtain ⟨es, h1, h2⟩ : ∃ es, Dict.get? exTet.topo 2 = some es ∧ (sortedItems es).length = 4 := ⟨_, rfl, rfl⟩
  have hne : es ≠ [] := by
    rintro rfl
    exact absurd h2 (by decide)
  obtain ⟨L, h3, h4⟩ := connectivity_spec exTet_proper.2.1.wf (d0 := 2) (d1 := 1) (by norm_num) h1 hne
  exact ⟨L, es, h3, h1, by rw [← h4.length_eq, h2]⟩

theorem full_dim_monotone {V : Type} {s : SimplexCell V} (hs : FullSimplex s) : DimMonotone s.topo := by
  intro d e v d' e' v' h h' hsub
  obtain ⟨n1, l1, -⟩ := hs.entity _ _ _ h
  obtain ⟨n2, l2, -⟩ := hs.entity _ _ _ h'
  have := List.Subperm.length_le (List.subperm_of_subset n2 hsub)
  omega

/-- C06, C20, C21: cubic Lagrange on the tetrahedron: the closure of face 0 is a strictly increasing list of dofs that contains the dofs
of edge 0, and a cubic polynomial that vanishes at the nodes in the closure vanishes on the whole face. -/
example : ∃ nodes ids cl l le, lagrangeDual ℝ exTet 3 = some (nodes, ids) ∧ nodes.length = 20 ∧ entityClosureIds exTet.topo ids = some cl ∧
    cl.at? 2 0 = some l ∧ l.Pairwise (· < ·) ∧ ids.at? 1 0 = some le ∧ (∀ n ∈ le, n ∈ l) ∧
    ∀ p : MvPolynomial (Fin 3) ℝ, p.totalDegree ≤ 3 → (∀ i x, i ∈ l → nodes[i]? = some x → eval x p = 0) →
      ∀ c : ℕ → ℝ, c 0 = 0 → (∀ j, 4 ≤ j → c j = 0) → ∑ j ∈ Finset.range 4, c j = 1 → eval (∑ j ∈ Finset.range 4, c j • exTet.v j) p = 0 := by
  obtain ⟨nodes, ids, h1, h2⟩ := lagrange_num_nodes (K := ℝ) exTet exTet_proper.2.1 exTet_proper.2.2.1 3 (by norm_num) (show 1 ≤ 3 by norm_num)
  obtain ⟨h3, h4, h5⟩ := lagrange_dofs_partition exTet exTet_proper.2.1 3 (by norm_num) nodes ids h1
  have hc : Covers exTet.topo ids := fun d e v h => Option.isSome_iff_exists.1 ((h3 d e).2 ⟨v, h⟩)
  obtain ⟨cl, c1, c2⟩ := entity_closure_spec exTet_proper.2.1.wf (full_dim_monotone exTet_proper.2.1) hc
  obtain ⟨l, l1, -, l3⟩ := c2 _ _ _ exTet_entities.1
  obtain ⟨le, hle⟩ := hc _ _ _ exTet_entities.2.1
  refine ⟨nodes, ids, cl, l, le, h1, by rw [h2]; rfl, c1, l1, ?_, hle, fun n hn => (l3 n).2 ⟨1, 0, _, le, exTet_entities.2.1, by simp, hle, hn⟩, ?_⟩
  · refine entity_closure_nodup exTet_proper.2.1.wf (full_dim_monotone exTet_proper.2.1) hc (fun d e l hl => (h4.1 d e l hl).1) ?_ c1 exTet_entities.1 l1
    intro d e l d' e' l' hl hl' hne n hn hn'
    obtain ⟨q, -, hq⟩ := h4.2 n ((h4.1 _ _ _ hl).2 n hn)
    exact hne ((hq (d, e) ⟨l, hl, hn⟩).trans (hq (d', e') ⟨l', hl', hn'⟩).symm)
  · intro p hp hz c c0 c4 hs
    exact lagrange_c0 exTet exTet_proper.2.1 3 (by norm_num) nodes ids h1 exTet_entities.1 p hp (fun i x hi hx => hz i x ((l3 i).2 hi) hx) c
      (fun j hj => by
        rcases Nat.lt_or_ge j 4 with h | h
        · interval_cases j <;> simp_all
        · exact c4 j h) hs

/-- C17, C20: quadratic Lagrange on the tetrahedron: `tabulate` succeeds for all points and orders, with
one table for each multi-index. -/
example : ∃ el ids nodes, lagrangeElement exTet 2 = some (el, ids) ∧ lagrangeDual ℝ exTet 2 = some (nodes, ids) ∧
    ∀ pts order, ∃ res, el.tabulate pts order = some res ∧ (∀ α, α ∈ Dict.keys res ↔ α.length = 3 ∧ α.sum ≤ order) := by
  obtain ⟨el, ids, nodes, h1, h2, ℓ, -, -, h3⟩ := lagrange_element_spec (by norm_num) exTet exTet_proper (fun h => absurd h (by norm_num)) 2 (by norm_num)
  exact ⟨el, ids, nodes, h1, h2, fun pts order => by
    obtain ⟨res, r1, r2, -⟩ := h3 pts order
    exact ⟨res, r1, r2⟩⟩

/-- C69: the transform of edge 3 of the UFC tetrahedron; other simplex classes map the whole edge to a vertex. -/
example : simplexTransform true exTet 1 3 = some (entMap fun j => exTet.v ((![0, 3] : Fin 2 → ℕ) j)) ∧
    simplexTransform false exTet 1 1 = some fun _ => exTet.v 1 :=
  ⟨entity_transform_ufc exTet_proper (by norm_num) ![0, 3] (by simpa using exTet_entities.2.2.1),
    entity_transform_other exTet_proper (by norm_num) (by norm_num) exTet_entities.2.2.2⟩

end FIAT
