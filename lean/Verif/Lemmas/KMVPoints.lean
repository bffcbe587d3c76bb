/-
The points and weights of the KMV rules on the UFC simplices, and the dictionaries of the dofs.
-/
import Verif.Lemmas.KMVTraces
import Verif.Lemmas.DofCheck
import Verif.Props.QuadTables
import Verif.Lemmas.Layout

namespace FIAT
section

private theorem li1 : latticeIter 1 2 1 = [[1]] := by decide
private theorem li2 : latticeIter 1 3 2 = [[1, 1]] := by decide

private theorem mid : edgeMidpoints (ufcTriangle : CellData ℝ) = some [[1 / 2, 1 / 2], [0, 1 / 2], [1 / 2, 0]] := by
  simp [edgeMidpoints, cellPoints, makePoints, CellData.toSimplex, ufcTriangle, intTopo, Dict.get?, Key.toNat,
    verticesOf, makeLatticeL, makeLattice, li1, natCombo]
  norm_num

private theorem bary : cellPoints (ufcTriangle : CellData ℝ) 2 2 0 3 = some [[1 / 3, 1 / 3]] := by
  simp [cellPoints, makePoints, CellData.toSimplex, ufcTriangle, makeLatticeL, makeLattice, li2, natCombo]

/-- The weights of the KMV rules. -/
def kmvWts : ℕ → ℕ → List ℚ
  | 2, 1 => List.replicate 3 (1 / 6)
  | 3, 1 => List.replicate 4 (1 / 24)
  | 2, 2 => kmvTri2Wts
  | 3, 2 => kmvTet2Wts
  | 2, 3 => kmvTri3Wts
  | 3, 3 => kmvTet3Wts
  | 2, 4 => kmvTri4Wts
  | 2, 5 => kmvTri5Wts
  | _, _ => []

theorem kmv_points (D k : ℕ) (h : (D = 2 ∧ 1 ≤ k ∧ k ≤ 5) ∨ (D = 3 ∧ 1 ≤ k ∧ k ≤ 3)) :
    kmvLumpScheme D (ufcData D) k = some ⟨(kmvPts D k).map (List.map fun q : ℚ => (q : ℝ)), (kmvWts D k).map fun q : ℚ => (q : ℝ)⟩ := by
  rcases h with ⟨rfl, h1, h2⟩ | ⟨rfl, h1, h2⟩
  · interval_cases k
    · simp [kmvLumpScheme, ufcData, ufcTriangle, QRule.mk?, kmvPts, kmvWts, kmvVerts]
      norm_num
    · unfold kmvLumpScheme
      simp only [ufcData, if_true, Nat.cast_ofNat, mid, bary]
      simp [ufcTriangle, QRule.mk?, kmvTri2Wts, kmvPts, kmvWts, kmvVerts]
    · simp [kmvLumpScheme, ufcData, ufcTriangle, QRule.mk?, kmvTri3Wts, castPts, kmvTri3Pts, kmvPts, kmvWts, kmvVerts]
    · unfold kmvLumpScheme
      simp only [ufcData, if_true, Nat.cast_ofNat, mid]
      simp [ufcTriangle, QRule.mk?, kmvTri4Wts, castPts, kmvTri4Pts, kmvPts, kmvWts, kmvVerts]
    · simp [kmvLumpScheme, ufcData, ufcTriangle, QRule.mk?, kmvTri5Wts, castPts, kmvTri5Pts, kmvPts, kmvWts, kmvVerts]
  · interval_cases k
    · simp [kmvLumpScheme, ufcData, ufcTetrahedron, QRule.mk?, kmvPts, kmvWts, kmvVerts]
      norm_num
    · simp [kmvLumpScheme, ufcData, ufcTetrahedron, QRule.mk?, kmvTet2Wts, castPts, kmvTet2Pts, kmvPts, kmvWts, kmvVerts]
    · simp [kmvLumpScheme, ufcData, ufcTetrahedron, QRule.mk?, kmvTet3Wts, castPts, kmvTet3Pts, kmvPts, kmvWts, kmvVerts]

/-- What is checked by computation for one degree. -/
structure KMVChecks (D k : ℕ) : Prop where
  cert : certOk (kmvPts D k) (kmvGens D k) (kmvInv D k) = true
  gens : gensOk D k (kmvGens D k) = true
  traces : kmvTracesOk D k = true
  dofs : kmvDofsOk D k = true
  ids : kmvEntityIds (kmvTopo D) D k = some (kmvIds D k)
  perm : ((kmvIds D k).flatMap fun p => p.2.flatMap fun q => q.2).Perm (List.range (kmvPts D k).length)
  keys : ((kmvTopo D).map fun p => (p.1, Dict.keys p.2)) = (kmvIds D k).map fun p => (p.1, Dict.keys p.2)
  wts : (kmvWts D k).length = (kmvPts D k).length ∧ ∀ w ∈ kmvWts D k, 0 < w
  pos : 1 ≤ (kmvPts D k).length

theorem kmv_checks (D k : ℕ) (h : (D = 2 ∧ 1 ≤ k ∧ k ≤ 5) ∨ (D = 3 ∧ 1 ≤ k ∧ k ≤ 3)) : KMVChecks D k := by
  rcases h with ⟨rfl, h1, h2⟩ | ⟨rfl, h1, h2⟩
  · interval_cases k
    · exact ⟨kmv_cert21, kmv_gens21, kmv_traces21, kmv_dofs21, by decide +kernel, by decide +kernel, by decide +kernel, by decide +kernel, by decide +kernel⟩
    · exact ⟨kmv_cert22, kmv_gens22, kmv_traces22, kmv_dofs22, by decide +kernel, by decide +kernel, by decide +kernel, by decide +kernel, by decide +kernel⟩
    · exact ⟨kmv_cert23, kmv_gens23, kmv_traces23, kmv_dofs23, by decide +kernel, by decide +kernel, by decide +kernel, by decide +kernel, by decide +kernel⟩
    · exact ⟨kmv_cert24, kmv_gens24, kmv_traces24, kmv_dofs24, by decide +kernel, by decide +kernel, by decide +kernel, by decide +kernel, by decide +kernel⟩
    · exact ⟨kmv_cert25, kmv_gens25, kmv_traces25, kmv_dofs25, by decide +kernel, by decide +kernel, by decide +kernel, by decide +kernel, by decide +kernel⟩
  · interval_cases k
    · exact ⟨kmv_cert31, kmv_gens31, kmv_traces31, kmv_dofs31, by decide +kernel, by decide +kernel, by decide +kernel, by decide +kernel, by decide +kernel⟩
    · exact ⟨kmv_cert32, kmv_gens32, kmv_traces32, kmv_dofs32, by decide +kernel, by decide +kernel, by decide +kernel, by decide +kernel, by decide +kernel⟩
    · exact ⟨kmv_cert33, kmv_gens33, kmv_traces33, kmv_dofs33, by decide +kernel, by decide +kernel, by decide +kernel, by decide +kernel, by decide +kernel⟩

theorem kmv_topo_wf (D : ℕ) : Topology.WF (kmvTopo D) := by
  unfold kmvTopo
  split_ifs
  · exact (proper_ufcTriangle (K := ℚ)).2.1.wf
  · exact (proper_ufcTetrahedron (K := ℚ)).2.1.wf

theorem kmv_ids_wf {D k : ℕ} (h : KMVChecks D k) : Topology.WF (kmvIds D k) := by
  have hk := h.keys
  have h1 := kmv_topo_wf D
  have e1 : Dict.keys (kmvIds D k) = Dict.keys (kmvTopo D) := by
    have := congrArg (List.map Prod.fst) hk
    rw [List.map_map, List.map_map] at this
    exact this.symm
  refine ⟨?_, fun p hp => ?_⟩
  · unfold Dict.WF
    rw [e1]
    exact h1.1
  · have : (p.1, Dict.keys p.2) ∈ (kmvTopo D).map fun p => (p.1, Dict.keys p.2) := by
      rw [hk]
      exact List.mem_map_of_mem (f := fun p : ℕ × Dict ℕ (List ℕ) => (p.1, Dict.keys p.2)) hp
    obtain ⟨q, hq, e⟩ := List.mem_map.1 this
    unfold Dict.WF
    rw [← (Prod.mk.inj e).2]
    exact h1.2 q hq

theorem kmv_ids_spec {D k : ℕ} (h : KMVChecks D k) :
    Topology.WF (kmvIds D k) ∧ SameEntities (kmvTopo D) (kmvIds D k) ∧ DofsPartition (kmvIds D k) (kmvPts D k).length :=
  ⟨kmv_ids_wf h, sameEntities_of_keys _ _ h.keys, dofsPartition_of_perm _ _ (kmv_ids_wf h) h.perm⟩

/-- The UFC simplex of dimension 2 or 3 as a cell. -/
theorem kmv_topo_eq (D : ℕ) (hD : D = 2 ∨ D = 3) : ((ufcData D).toSimplex D).topo = kmvTopo D := by
  rcases hD with rfl | rfl <;> rfl

theorem proper_ufcData (D : ℕ) (hD : D = 2 ∨ D = 3) : ProperSimplex ℝ ((ufcData D).toSimplex D) ∧ NumberedSimplex ((ufcData D).toSimplex D) := by
  rcases hD with rfl | rfl
  · exact ⟨proper_ufcTriangle, numbered_ufcTriangle⟩
  · exact ⟨proper_ufcTetrahedron, numbered_ufcTetrahedron⟩

theorem verts_ufcData (D : ℕ) (hD : D = 2 ∨ D = 3) : UFCVerts ((ufcData D).toSimplex D) := by
  rcases hD with rfl | rfl
  · intro a ha
    funext i
    interval_cases a <;> fin_cases i <;> simp [ufcData, ufcTriangle, CellData.toSimplex, toVec, SimplexCell.v]
  · intro a ha
    funext i
    interval_cases a <;> fin_cases i <;> simp [ufcData, ufcTetrahedron, CellData.toSimplex, toVec, SimplexCell.v]

end
end FIAT
