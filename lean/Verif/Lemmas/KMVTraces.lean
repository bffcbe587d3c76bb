/-
Certificates for the traces of the Kong-Mulder-Veldhuizen elements on edges and facets, and for the positions of their dofs.
-/
import Verif.Lemmas.KMVSep

namespace FIAT

/-- Approximate inverses (times 10) for the edges and facets, by dimension, degree, dimension and number of the entity. -/
def kmvEntInv : ℕ → ℕ → ℕ → ℕ → List (List ℤ)
  | 2, 1, 1, 0 => [[10, 0], [0, 10]]
  | 2, 1, 1, 1 => [[10, 0], [0, 10]]
  | 2, 1, 1, 2 => [[10, 0], [0, 10]]
  | 3, 1, 1, 0 => [[10, 0], [0, 10]]
  | 3, 1, 1, 1 => [[10, 0], [0, 10]]
  | 3, 1, 1, 2 => [[10, 0], [0, 10]]
  | 3, 1, 1, 3 => [[10, 0], [0, 10]]
  | 3, 1, 1, 4 => [[10, 0], [0, 10]]
  | 3, 1, 1, 5 => [[10, 0], [0, 10]]
  | 3, 1, 2, 0 => [[10, 0, 0], [0, 10, 0], [0, 0, 10]]
  | 3, 1, 2, 1 => [[10, 0, 0], [0, 10, 0], [0, 0, 10]]
  | 3, 1, 2, 2 => [[10, 0, 0], [0, 10, 0], [0, 0, 10]]
  | 3, 1, 2, 3 => [[10, 0, 0], [0, 10, 0], [0, 0, 10]]
  | 2, 2, 1, 0 => [[10, 0, 0], [-10, -10, 40], [0, 10, 0]]
  | 2, 2, 1, 1 => [[10, 0, 0], [-10, -10, 40], [0, 10, 0]]
  | 2, 2, 1, 2 => [[10, 0, 0], [-10, -10, 40], [0, 10, 0]]
  | 2, 3, 1, 0 => [[10, 0, 0, 0], [-28, 10, 82, -34], [10, -28, -34, 82], [0, 10, 0, 0]]
  | 2, 3, 1, 1 => [[10, 0, 0, 0], [-28, 10, 82, -34], [10, -28, -34, 82], [0, 10, 0, 0]]
  | 2, 3, 1, 2 => [[10, 0, 0, 0], [-28, 10, 82, -34], [10, -28, -34, 82], [0, 10, 0, 0]]
  | 2, 4, 1, 0 => [[10, 0, 0, 0, 0], [-50, -10, 142, -80, 38], [50, 50, -180, 320, -180], [-10, -50, 38, -80, 142], [0, 10, 0, 0, 0]]
  | 2, 4, 1, 1 => [[10, 0, 0, 0, 0], [-50, -10, 142, -80, 38], [50, 50, -180, 320, -180], [-10, -50, 38, -80, 142], [0, 10, 0, 0, 0]]
  | 2, 4, 1, 2 => [[10, 0, 0, 0, 0], [-50, -10, 142, -80, 38], [50, 50, -180, 320, -180], [-10, -50, 38, -80, 142], [0, 10, 0, 0, 0]]
  | 2, 5, 1, 0 => [[10, 0, 0, 0, 0, 0], [-90, 10, 204, -99, 57, -31], [176, -90, -505, 722, -479, 276], [-90, 176, 276, -479, 722, -505], [10, -90, -31, 57, -99, 204], [0, 10, 0, 0, 0, 0]]
  | 2, 5, 1, 1 => [[10, 0, 0, 0, 0, 0], [-90, 10, 204, -99, 57, -31], [176, -90, -505, 722, -479, 276], [-90, 176, 276, -479, 722, -505], [10, -90, -31, 57, -99, 204], [0, 10, 0, 0, 0, 0]]
  | 2, 5, 1, 2 => [[10, 0, 0, 0, 0, 0], [-90, 10, 204, -99, 57, -31], [176, -90, -505, 722, -479, 276], [-90, 176, 276, -479, 722, -505], [10, -90, -31, 57, -99, 204], [0, 10, 0, 0, 0, 0]]
  | 3, 2, 1, 0 => [[10, 0, 0], [-10, -10, 40], [0, 10, 0]]
  | 3, 2, 1, 1 => [[10, 0, 0], [-10, -10, 40], [0, 10, 0]]
  | 3, 2, 1, 2 => [[10, 0, 0], [-10, -10, 40], [0, 10, 0]]
  | 3, 2, 1, 3 => [[10, 0, 0], [-10, -10, 40], [0, 10, 0]]
  | 3, 2, 1, 4 => [[10, 0, 0], [-10, -10, 40], [0, 10, 0]]
  | 3, 2, 1, 5 => [[10, 0, 0], [-10, -10, 40], [0, 10, 0]]
  | 3, 2, 2, 1 => [[10, 0, 0, 0, 0, 0, 0], [-10, -10, 0, 0, 0, 40, 0], [-10, 0, -10, 0, 40, 0, 0], [0, 10, 0, 0, 0, 0, 0], [0, -10, -10, 40, 0, 0, 0], [0, 0, 10, 0, 0, 0, 0], [30, 30, 30, -120, -120, -120, 270]]
  | 3, 2, 2, 2 => [[10, 0, 0, 0, 0, 0, 0], [-10, -10, 0, 0, 0, 40, 0], [-10, 0, -10, 0, 40, 0, 0], [0, 10, 0, 0, 0, 0, 0], [0, -10, -10, 40, 0, 0, 0], [0, 0, 10, 0, 0, 0, 0], [30, 30, 30, -120, -120, -120, 270]]
  | 3, 2, 2, 3 => [[10, 0, 0, 0, 0, 0, 0], [-10, -10, 0, 0, 0, 40, 0], [-10, 0, -10, 0, 40, 0, 0], [0, 10, 0, 0, 0, 0, 0], [0, -10, -10, 40, 0, 0, 0], [0, 0, 10, 0, 0, 0, 0], [30, 30, 30, -120, -120, -120, 270]]
  | 3, 3, 1, 0 => [[10, 0, 0, 0], [-26, 10, 86, -39], [10, -26, -39, 86], [0, 10, 0, 0]]
  | 3, 3, 1, 1 => [[10, 0, 0, 0], [-26, 10, 86, -39], [10, -26, -39, 86], [0, 10, 0, 0]]
  | 3, 3, 1, 2 => [[10, 0, 0, 0], [-26, 10, 86, -39], [10, -26, -39, 86], [0, 10, 0, 0]]
  | 3, 3, 1, 3 => [[10, 0, 0, 0], [-26, 10, 86, -39], [10, -26, -39, 86], [0, 10, 0, 0]]
  | 3, 3, 1, 4 => [[10, 0, 0, 0], [-26, 10, 86, -39], [10, -26, -39, 86], [0, 10, 0, 0]]
  | 3, 3, 1, 5 => [[10, 0, 0, 0], [-26, 10, 86, -39], [10, -26, -39, 86], [0, 10, 0, 0]]
  | 3, 3, 2, 1 => [[10, 0, 0, 0, 0, 0, 0, 0, 0, 0, 0, 0], [-26, 10, 0, 0, 0, 0, 0, 86, -39, 0, 0, 0], [-26, 0, 10, 0, 0, 86, -39, 0, 0, 0, 0, 0], [10, -26, 0, 0, 0, 0, 0, -39, 86, 0, 0, 0], [10, 0, -26, 0, 0, -39, 86, 0, 0, 0, 0, 0], [0, 10, 0, 0, 0, 0, 0, 0, 0, 0, 0, 0], [0, -26, 10, 86, -39, 0, 0, 0, 0, 0, 0, 0], [0, 10, -26, -39, 86, 0, 0, 0, 0, 0, 0, 0], [0, 0, 10, 0, 0, 0, 0, 0, 0, 0, 0, 0], [107, -26, -26, 64, 64, -415, 165, -415, 165, -231, -231, 840], [-26, 107, -26, -415, 165, 64, 64, 165, -415, 840, -231, -231], [-26, -26, 107, 165, -415, 165, -415, 64, 64, -231, 840, -231]]
  | 3, 3, 2, 2 => [[10, 0, 0, 0, 0, 0, 0, 0, 0, 0, 0, 0], [-26, 10, 0, 0, 0, 0, 0, 86, -39, 0, 0, 0], [-26, 0, 10, 0, 0, 86, -39, 0, 0, 0, 0, 0], [10, -26, 0, 0, 0, 0, 0, -39, 86, 0, 0, 0], [10, 0, -26, 0, 0, -39, 86, 0, 0, 0, 0, 0], [0, 10, 0, 0, 0, 0, 0, 0, 0, 0, 0, 0], [0, -26, 10, 86, -39, 0, 0, 0, 0, 0, 0, 0], [0, 10, -26, -39, 86, 0, 0, 0, 0, 0, 0, 0], [0, 0, 10, 0, 0, 0, 0, 0, 0, 0, 0, 0], [107, -26, -26, 64, 64, -415, 165, -415, 165, -231, -231, 840], [-26, 107, -26, -415, 165, 64, 64, 165, -415, 840, -231, -231], [-26, -26, 107, 165, -415, 165, -415, 64, 64, -231, 840, -231]]
  | 3, 3, 2, 3 => [[10, 0, 0, 0, 0, 0, 0, 0, 0, 0, 0, 0], [-26, 10, 0, 0, 0, 0, 0, 86, -39, 0, 0, 0], [-26, 0, 10, 0, 0, 86, -39, 0, 0, 0, 0, 0], [10, -26, 0, 0, 0, 0, 0, -39, 86, 0, 0, 0], [10, 0, -26, 0, 0, -39, 86, 0, 0, 0, 0, 0], [0, 10, 0, 0, 0, 0, 0, 0, 0, 0, 0, 0], [0, -26, 10, 86, -39, 0, 0, 0, 0, 0, 0, 0], [0, 10, -26, -39, 86, 0, 0, 0, 0, 0, 0, 0], [0, 0, 10, 0, 0, 0, 0, 0, 0, 0, 0, 0], [107, -26, -26, 64, 64, -415, 165, -415, 165, -231, -231, 840], [-26, 107, -26, -415, 165, 64, 64, 165, -415, 840, -231, -231], [-26, -26, 107, 165, -415, 165, -415, 64, 64, -231, 840, -231]]
  | _, _, _, _ => []

/-- The topologies of the UFC simplices. -/
def kmvTopo (D : ℕ) : Topology ℕ := if D = 2 then ((ufcTriangle : CellData ℚ).toSimplex 2).topo else ((ufcTetrahedron : CellData ℚ).toSimplex 3).topo

/-- The dofs of the entities. -/
def kmvIds (D k : ℕ) : EntityIds ℕ := (kmvEntityIds (kmvTopo D) D k).getD []

/-- The dofs of an entity. -/
def kmvDofs (D k d e : ℕ) : List ℕ := (EntityIds.at? (kmvIds D k) d e).getD []

/-- The points of the dofs of an entity. -/
def kmvDofPts (D k d e : ℕ) : List (List ℚ) := (kmvDofs D k d e).map fun (i : ℕ) => (kmvPts D k).getD i []

/-- The entities of a topology. -/
def topoEnts (topo : Topology ℕ) : List (ℕ × ℕ × List ℕ) := topo.flatMap fun p => p.2.map fun (q : ℕ × List ℕ) => (p.1, q.1, q.2)

/-- The points of the dofs of the closure of the entity with vertices `t`. -/
def closurePts (D k : ℕ) (t : List ℕ) : List (List ℚ) :=
  ((topoEnts (kmvTopo D)).filter fun (q : ℕ × ℕ × List ℕ) => q.2.2.all fun (a : ℕ) => decide (a ∈ t)).flatMap fun (q : ℕ × ℕ × List ℕ) =>
    kmvDofPts D k q.1 q.2.1

/-- The traces on the edges, and on the facets other than number 0 (on all facets for degree 1). -/
def kmvTracesOk (D k : ℕ) : Bool := (topoEnts (kmvTopo D)).all fun (q : ℕ × ℕ × List ℕ) =>
  decide (¬ (q.1 = 1 ∨ (D = 3 ∧ q.1 = 2 ∧ (q.2.1 ≠ 0 ∨ k = 1)))) ||
    entityOk D (kmvGens D k) q.2.2 (closurePts D k q.2.2) (kmvEntInv D k q.1 q.2.1)

/-- The parameters of the dofs of the edges, and the barycentric coordinates of the dofs of the facets: those of the last ones. -/
def kmvParams (D k : ℕ) : List ℚ := (kmvDofPts D k 1 (if D = 2 then 2 else 5)).map fun x => x.getD 0 0
def kmvFacetParams (k : ℕ) : List (List ℚ) := (kmvDofPts 3 k 2 3).map fun x => [1 - x.getD 0 0 - x.getD 1 0, x.getD 0 0, x.getD 1 0]

/-- A combination of vertices. -/
def vertComb (D : ℕ) (t : List ℕ) (c : List ℚ) : List ℚ := (List.range D).map fun (i : ℕ) =>
  (List.zipWith (fun (a : ℕ) (r : ℚ) => r * ((kmvVerts D).getD a []).getD i 0) t c).sum

/-- The positions of the dofs: of the vertices, of the edges, of the facets and of the interior. -/
def kmvDofsOk (D k : ℕ) : Bool :=
  (topoEnts (kmvTopo D)).all (fun (q : ℕ × ℕ × List ℕ) =>
    (decide (q.1 ≠ 0) || decide (kmvDofPts D k q.1 q.2.1 = q.2.2.map fun (a : ℕ) => (kmvVerts D).getD a [])) &&
    (decide (q.1 ≠ 1) || decide (kmvDofPts D k q.1 q.2.1 = (kmvParams D k).map fun r => vertComb D q.2.2 [1 - r, r])) &&
    (decide (¬ (D = 3 ∧ q.1 = 2)) || (decide ((kmvDofPts D k q.1 q.2.1).length = (kmvFacetParams k).length) &&
      (List.zip (kmvDofPts D k q.1 q.2.1) ((kmvFacetParams k).map (vertComb D q.2.2))).all fun (r : List ℚ × List ℚ) =>
        (decide (q.2.1 = 0) || decide (r.1 = r.2)) && (List.zip r.1 r.2).all fun (z : ℚ × ℚ) => decide (|z.1 - z.2| ≤ 1e-16))) &&
    (decide (q.1 ≠ D) || ((kmvDofPts D k q.1 q.2.1).all fun (x : List ℚ) => (baryQ x).all fun (b : ℚ) => decide (0 < b)))) &&
  (kmvParams D k).all (fun (r : ℚ) => decide (0 < r ∧ r < 1)) && decide ((kmvParams D k).Pairwise (· < ·)) &&
  decide ((kmvParams D k).reverse = (kmvParams D k).map fun r => 1 - r) && decide ((kmvParams D k).length = k - 1) &&
  (kmvFacetParams k).all (fun (c : List ℚ) => decide (c.length = 3 ∧ c.sum = 1 ∧ ∀ r ∈ c, 0 < r)) &&
  (kmvPts D k).all (fun (x : List ℚ) => decide (x.length = D)) && decide ((kmvPts D k).length = (kmvGens D k).length)

theorem kmv_gens21 : gensOk 2 1 (kmvGens 2 1) = true := by decide +kernel
theorem kmv_traces21 : kmvTracesOk 2 1 = true := by decide +kernel
theorem kmv_dofs21 : kmvDofsOk 2 1 = true := by decide +kernel

theorem kmv_gens31 : gensOk 3 1 (kmvGens 3 1) = true := by decide +kernel
theorem kmv_traces31 : kmvTracesOk 3 1 = true := by decide +kernel
theorem kmv_dofs31 : kmvDofsOk 3 1 = true := by decide +kernel

theorem kmv_gens22 : gensOk 2 2 (kmvGens 2 2) = true := by decide +kernel
theorem kmv_traces22 : kmvTracesOk 2 2 = true := by decide +kernel
theorem kmv_dofs22 : kmvDofsOk 2 2 = true := by decide +kernel

theorem kmv_gens23 : gensOk 2 3 (kmvGens 2 3) = true := by decide +kernel
theorem kmv_traces23 : kmvTracesOk 2 3 = true := by decide +kernel
theorem kmv_dofs23 : kmvDofsOk 2 3 = true := by decide +kernel

theorem kmv_gens24 : gensOk 2 4 (kmvGens 2 4) = true := by decide +kernel
theorem kmv_traces24 : kmvTracesOk 2 4 = true := by decide +kernel
theorem kmv_dofs24 : kmvDofsOk 2 4 = true := by decide +kernel

theorem kmv_gens25 : gensOk 2 5 (kmvGens 2 5) = true := by decide +kernel
theorem kmv_traces25 : kmvTracesOk 2 5 = true := by decide +kernel
theorem kmv_dofs25 : kmvDofsOk 2 5 = true := by decide +kernel

theorem kmv_gens32 : gensOk 3 2 (kmvGens 3 2) = true := by decide +kernel
theorem kmv_traces32 : kmvTracesOk 3 2 = true := by decide +kernel
theorem kmv_dofs32 : kmvDofsOk 3 2 = true := by decide +kernel

theorem kmv_gens33 : gensOk 3 3 (kmvGens 3 3) = true := by decide +kernel
theorem kmv_traces33 : kmvTracesOk 3 3 = true := by decide +kernel
theorem kmv_dofs33 : kmvDofsOk 3 3 = true := by decide +kernel

end FIAT
