/-
C75: the same points on all entities of a dimension; quadrilaterals and hexahedra.
-/
import Verif.Props.QCells
import Verif.Lemmas.CubeTopology

namespace FIAT
open MvPolynomial

/-- The points on a reference cube, as tensor products of the points on the interval. -/
def cubePlaces (pts : List (List ℝ)) : ℕ → List (List ℝ)
  | 0 => [[]]
  | d + 1 => prodNodes (cubePlaces pts d) pts

/-- The multilinear weights of the vertices of a reference cube. -/
noncomputable def cubeWeights : ℕ → List ℝ → List ℝ
  | 0, _ => [1]
  | d + 1, p => (cubeWeights d (p.take d)).flatMap fun v => [1 - (p[d]?).getD 0, (p[d]?).getD 0].map fun w => v * w

theorem cubePlaces_length {pts : List (List ℝ)} (h : ∀ p ∈ pts, p.length = 1) (d : ℕ) : ∀ p ∈ cubePlaces pts d, p.length = d := by
  induction d with
  | zero => intro p hp; rw [cubePlaces, List.mem_singleton] at hp; rw [hp]; rfl
  | succ d ih =>
    intro p hp
    rw [cubePlaces, prodNodes, List.mem_flatMap] at hp
    obtain ⟨a, ha, hp⟩ := hp
    obtain ⟨q, hq, rfl⟩ := List.mem_map.1 hp
    rw [List.length_append, ih a ha, h q hq]

theorem prodNodes_nil_left (q : List (List ℝ)) : prodNodes [[]] q = q := by simp [prodNodes]

theorem prodNodes_nil_right (p : List (List ℝ)) : prodNodes p [[]] = p := by simp [prodNodes]

/-- The points and weights depend only on the dimension of the entity. -/
def Uniform (E : TabElem ℝ ℝ) (P : Key → List (List ℝ)) (W : Key → List ℝ → List ℝ) (pts : List (List ℝ)) : Prop :=
  ∀ d e t, HasEntity E.cell.topo d e t → P d = cubePlaces pts d.tupleSum ∧
    ∀ p : List ℝ, p.length = d.tupleSum → W d p = cubeWeights d.tupleSum p

theorem line_uniform {D m N : ℕ} (el : PolySet ℝ (Fin D → ℝ) N m Unit) (pts : List (List ℝ)) :
    Uniform (ciarletTab true ufcInterval el) (linePlaces pts) lineWeights pts := by
  intro d e t h
  rcases interval_entity h with ⟨rfl, -, -⟩ | ⟨rfl, -, -⟩
  · exact ⟨rfl, fun p _ => rfl⟩
  · exact ⟨(prodNodes_nil_left pts).symm, fun p _ => by simp [Key.tupleSum, lineWeights, cubeWeights]⟩

theorem uniform_product {A : TabElem ℝ ℝ} {P : Key → List (List ℝ)} {V : Key → List ℝ → List ℝ} {pts : List (List ℝ)}
    (gA : GoodCell A.cell) (hA : Uniform A P V pts) {D m N : ℕ} (el : PolySet ℝ (Fin D → ℝ) N m Unit) :
    Uniform (productTab A (ciarletTab true ufcInterval el)) (prodPlaces P (linePlaces pts)) (prodWeights V lineWeights) pts := by
  intro d e t h
  obtain ⟨da, ea, va, db, eb, vb, k1, k2, rfl, rfl, k3, rfl⟩ := pair_factors gA good_interval h
  have hts : (Key.tup [da, db]).tupleSum = da.tupleSum + db.tupleSum := by simp [Key.tup, Key.tupleSum]
  obtain ⟨q1, q2⟩ := hA _ _ _ k1
  rw [hts]
  change prodNodes (P da) (linePlaces pts db) = _ ∧ ∀ p : List ℝ, _ → ((V da (p.take da.tupleSum)).flatMap fun v =>
      (lineWeights db ((p.drop da.tupleSum).take db.tupleSum)).map fun w => v * w) = _
  rw [q1]
  rcases interval_entity k2 with ⟨rfl, -, -⟩ | ⟨rfl, -, -⟩
  · refine ⟨prodNodes_nil_right _, fun p hp => ?_⟩
    have hp' : p.length = da.tupleSum := hp
    rw [q2 _ (by rw [List.length_take, hp', min_self]), ← hp', List.take_length, hp']
    simp [lineWeights, Key.tupleSum]
  · refine ⟨rfl, fun p hp => ?_⟩
    have hp' : p.length = da.tupleSum + 1 := hp
    rw [q2 _ (by rw [List.length_take, hp']; simp)]
    simp only [lineWeights, Key.tupleSum, cubeWeights]
    rw [List.getElem?_take_of_lt (by norm_num), List.getElem?_drop]
    simp

theorem uniform_flatten {E : TabElem ℝ ℝ} {ids : EntityIds Key} {nodes : List (List ℝ)} {φ : ℕ → MvPolynomial (Fin E.sd) ℝ}
    {emb : Key → ℕ → List ℝ → Fin E.sd → ℝ} {P : Key → List (List ℝ)} {W : Key → List ℝ → List ℝ} {a : Fin E.sd → ℕ} {pts : List (List ℝ)}
    (hE : IsCubeElement E ids nodes φ emb P W a) (hU : Uniform E P W pts) (hpts : ∀ p ∈ pts, p.length = 1) {c : CellData ℝ}
    (hc : IsFlatCell E.cell c) (gc : GoodCell c) (hi : IntKeys c.topo) :
    ∃ P' W', IsCubeElement (flatOf E c) (flatIds ids) nodes φ (flatEmb E.cell.topo emb) P' W' a ∧ Uniform (flatOf E c) P' W' pts := by
  refine ⟨_, _, cube_flatten hE hc gc (Q := cubePlaces pts) (fun d e t h => (hU d e t h).1) (fun d => cubePlaces_length hpts d)
    (W' := cubeWeights) (fun d e t p h hp => (hU d e t h).2 p hp), ?_⟩
  intro d e t h
  obtain ⟨es, h1, -⟩ := h.mem
  obtain ⟨d', hd'⟩ := hi _ h1
  obtain rfl : d = .int d' := hd'
  exact ⟨rfl, fun p _ => rfl⟩

end FIAT
