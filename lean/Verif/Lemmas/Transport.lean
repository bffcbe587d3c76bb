/-
C88, C89: nodal bases on a cell and on its image under an affine map; naturality of lattices and of the entity loop.
-/
import Verif.Lemmas.CommuteCurl
import Verif.Props.ConformUfc
import Verif.Props.ConformC0
import Verif.Props.CrouzeixRaviart

namespace FIAT
open MvPolynomial
section
variable {D : ℕ}

/-- A list of functions of the space on which the nodes are the unit vectors is the nodal basis. -/
theorem dual_family_unique {Cp : Type} [Fintype Cp] (comp : Cp → List ℕ) {m : ℕ} {nodes : List (Functional ℝ (Fin D → ℝ))} (hlen : nodes.length = m)
    {ψ q : Fin m → Cp → MvPolynomial (Fin D) ℝ}
    (h : ∀ (i : ℕ) l, nodes[i]? = some l → ∀ j : Fin m, l.onField (fieldC comp (ψ j)) = if i = (j : ℕ) then 1 else 0)
    (hq : ∀ j, q j ∈ Submodule.span ℝ (Set.range ψ))
    (hd : ∀ (i : ℕ) l, nodes[i]? = some l → ∀ j : Fin m, l.onField (fieldC comp (q j)) = if i = (j : ℕ) then 1 else 0) : q = ψ := by
  funext j
  obtain ⟨a, ha⟩ := (Submodule.mem_span_range_iff_exists_fun ℝ).1 (hq j)
  rw [← ha]
  have hval : ∀ i : Fin m, a i = if i = j then 1 else 0 := by
    intro i
    have hl : nodes[(i : ℕ)]? = some nodes[(i : ℕ)] := List.getElem?_eq_getElem (by omega)
    have h1 := hd i _ hl j
    rw [← ha, onFieldC_comb, Finset.sum_eq_single i] at h1
    · rw [h i _ hl i, if_pos rfl, mul_one] at h1
      rw [h1]
      simp only [Fin.ext_iff]
    · intro c _ hc
      rw [h i _ hl c, if_neg (fun e => hc (Fin.ext e.symm)), mul_zero]
    · simp
  rw [Finset.sum_eq_single j]
  · rw [hval j, if_pos rfl, one_smul]
  · intro c _ hc
    rw [hval c, if_neg hc, zero_smul]
  · simp

/-- A polynomial on the image cell, as a polynomial on the cell. -/
noncomputable def pullCell (A : Matrix (Fin D) (Fin D) ℝ) (b : Fin D → ℝ) (p : MvPolynomial (Fin D) ℝ) : MvPolynomial (Fin D) ℝ :=
  pullback (affVerts A b 0) (fun i => affVerts A b i.succ) p

theorem eval_pullCell (A : Matrix (Fin D) (Fin D) ℝ) (b x : Fin D → ℝ) (p : MvPolynomial (Fin D) ℝ) :
    eval x (pullCell A b p) = eval (cellMap A b x) p := by
  unfold pullCell
  rw [eval_pull, entMap_affVerts]

theorem degree_pullCell (A : Matrix (Fin D) (Fin D) ℝ) (b : Fin D → ℝ) (p : MvPolynomial (Fin D) ℝ) :
    (pullCell A b p).totalDegree ≤ p.totalDegree := totalDegree_pullback _ _ _

theorem pderiv_pullCell (A : Matrix (Fin D) (Fin D) ℝ) (b : Fin D → ℝ) (p : MvPolynomial (Fin D) ℝ) (a : Fin D) :
    pderiv a (pullCell A b p) = ∑ l, C (A l a) * pullCell A b (pderiv l p) := by
  unfold pullCell
  rw [pderiv_pullback]
  refine Finset.sum_congr rfl fun l _ => ?_
  congr 2
  simp [affVerts]

/-- `s'` is the image of the cell `s` under the affine map `(A, b)`: the same numbering of vertices and entities, mapped coordinates. -/
structure MappedCell (A : Matrix (Fin D) (Fin D) ℝ) (b : Fin D → ℝ) (s s' : SimplexCell (Fin D → ℝ)) : Prop where
  regular : A.det ≠ 0
  sd : s'.sd = s.sd
  topo : s'.topo = s.topo
  verts : s'.verts = s.verts.map (cellMap A b)

variable {A : Matrix (Fin D) (Fin D) ℝ} {b : Fin D → ℝ} {s s' : SimplexCell (Fin D → ℝ)}

theorem MappedCell.v (h : MappedCell A b s s') {a : ℕ} (ha : a < s.verts.length) : s'.v a = cellMap A b (s.v a) := by
  unfold SimplexCell.v
  rw [h.verts, List.getElem?_map, List.getElem?_eq_getElem ha]
  rfl

theorem cellMap_diff (A : Matrix (Fin D) (Fin D) ℝ) (b x y : Fin D → ℝ) : cellMap A b x - cellMap A b y = A.mulVec (x - y) := by
  unfold cellMap
  rw [add_sub_add_right_eq_sub, ← Matrix.mulVec_sub]

theorem cellMap_add (A : Matrix (Fin D) (Fin D) ℝ) (b x y : Fin D → ℝ) : cellMap A b (x + y) = cellMap A b x + A.mulVec y := by
  unfold cellMap
  rw [Matrix.mulVec_add]
  abel

theorem mulVec_natCombo (A : Matrix (Fin D) (Fin D) ℝ) (idx : List ℕ) (hs : List (Fin D → ℝ)) :
    A.mulVec (natCombo ℝ idx hs) = natCombo ℝ idx (hs.map A.mulVec) := by
  induction idx generalizing hs with
  | nil => simp [natCombo]
  | cons i idx ih =>
    cases hs with
    | nil => simp [natCombo]
    | cons v hs =>
      have := ih hs
      simp only [natCombo, List.zipWith_cons_cons, List.sum_cons, List.map_cons, Matrix.mulVec_add, Matrix.mulVec_smul] at this ⊢
      rw [this]

theorem makeLatticeL_map (A : Matrix (Fin D) (Fin D) ℝ) (b : Fin D → ℝ) (vs : List (Fin D → ℝ)) (n i : ℕ) :
    makeLatticeL ℝ (vs.map (cellMap A b)) n i = (makeLatticeL ℝ vs n i).map (List.map (cellMap A b)) := by
  cases vs with
  | nil => rfl
  | cons v0 vs =>
    change some _ = some _
    congr 1
    unfold makeLattice
    simp only [List.map_map, List.length_map]
    refine List.map_congr_left fun idx _ => ?_
    simp only [Function.comp_apply]
    rw [cellMap_add, mulVec_natCombo, List.map_map]
    congr 2
    refine List.map_congr_left fun v _ => ?_
    simp only [Function.comp_apply]
    rw [cellMap_diff, Matrix.mulVec_smul]

theorem verticesOf_map (h : MappedCell A b s s') (t : List ℕ) : verticesOf s' t = (verticesOf s t).map (List.map (cellMap A b)) := by
  unfold verticesOf
  rw [h.verts]
  induction t with
  | nil => rfl
  | cons i t ih =>
    rw [List.mapM_cons, List.mapM_cons, ih, List.getElem?_map]
    cases s.verts[i]? with
    | none => rfl
    | some v =>
      cases (t.mapM fun i => s.verts[i]?) with
      | none => rfl
      | some vs => rfl

theorem makePoints_map (h : MappedCell A b s s') (dim e n : ℕ) :
    makePoints ℝ s' dim e n = (makePoints ℝ s dim e n).map (List.map (cellMap A b)) := by
  unfold makePoints
  rw [h.sd, h.topo]
  split
  · rw [h.verts, List.getElem?_map]
    cases s.verts[e]? <;> rfl
  · split
    · cases Dict.get? s.topo dim with
      | none => rfl
      | some es =>
        simp only [Option.bind_eq_bind, Option.bind_some]
        cases Dict.get? es e with
        | none => rfl
        | some t =>
          simp only [Option.bind_some]
          rw [verticesOf_map h]
          cases verticesOf s t with
          | none => rfl
          | some vs => exact makeLatticeL_map A b vs n 1
    · split
      · rw [h.verts]
        exact makeLatticeL_map A b _ n 1
      · rfl

/-- The entity loop commutes with a map of the nodes. -/
theorem numberEntities_map {N : Type} (topo : Topology ℕ) (f : N → N) (pts pts' : ℕ → ℕ → Option (List N))
    (h : ∀ d e, pts' d e = (pts d e).map (List.map f)) :
    numberEntities topo pts' = (numberEntities topo pts).map fun r => (r.1, r.2.1.map f, r.2.2) := by
  have key : ∀ {σ : Type} {I : Type} (L : List I) (R : σ → σ) (F F' : σ → I → Option σ), (∀ st i, F' (R st) i = (F st i).map R) → ∀ st,
      L.foldlM F' (R st) = (L.foldlM F st).map R := by
    intro σ I L R F F' hF
    induction L with
    | nil => intro st; rfl
    | cons i L ih =>
      intro st
      rw [List.foldlM_cons, List.foldlM_cons, hF]
      cases F st i with
      | none => rfl
      | some st' => exact ih st'
  unfold numberEntities
  refine key _ (fun r : ℕ × List N × EntityIds ℕ => (r.1, r.2.1.map f, r.2.2)) _ _ (fun st p => ?_) (0, [], [])
  refine key _ (fun r : ℕ × List N × EntityIds ℕ => (r.1, r.2.1.map f, r.2.2)) _ _ (fun st q => ?_) (st.1, st.2.1, Dict.put st.2.2 p.1 [])
  rw [h]
  cases pts p.1 q.1 with
  | none => rfl
  | some new =>
    simp only [Option.map_some, Option.bind_eq_bind, Option.bind_some]
    cases (Dict.get? st.2.2 p.1) with
    | none => rfl
    | some inner => simp [List.length_map, List.map_append]


/-- The image of a nondegenerate simplex is one. -/
theorem MappedCell.proper (h : MappedCell A b s s') (hs : ProperSimplex ℝ s) : ProperSimplex ℝ s' := by
  obtain ⟨h1, h2, h3, h4⟩ := hs
  have hsd' := h.sd
  have hsd : s'.sd = D := h.sd.trans h1
  refine ⟨hsd, ?_, ?_, by rw [h.topo]; exact h4⟩
  · obtain ⟨a1, a2, a3, a4, a5, a6⟩ := h2
    constructor
    all_goals (try rw [h.topo]); (try rw [hsd']); (try rw [h.verts, List.length_map]); assumption
  · unfold Nondegenerate at *
    rw [hsd']
    let F : (Fin D → ℝ) →ᵃ[ℝ] (Fin D → ℝ) := (Matrix.toLin' A).toAffineMap + AffineMap.const ℝ (Fin D → ℝ) b
    have hF : ∀ x, F x = cellMap A b x := fun x => by simp [F, cellMap]
    have := h3.map' F (fun x y hxy => cellMap_injective h.regular b (by rwa [hF, hF] at hxy))
    refine (congrArg (AffineIndependent ℝ) ?_).mp this
    funext i
    rw [Function.comp_apply, hF, h.v]
    rw [h2.nverts]
    exact i.2

theorem MappedCell.orientation (h : MappedCell A b s s') (hs : ProperSimplex ℝ s) :
    orientation (fun i : Fin (D + 1) => s'.v i) = A.det * orientation fun i : Fin (D + 1) => s.v i := by
  have hv : ∀ i : Fin (D + 1), s'.v i = cellMap A b (s.v i) := fun i => h.v (by rw [hs.2.1.nverts, hs.1]; exact i.2)
  unfold FIAT.orientation
  have e : (Matrix.of fun i j : Fin D => s'.v j.succ i - s'.v (0 : Fin (D + 1)) i) =
      A * (Matrix.of fun i j : Fin D => s.v j.succ i - s.v (0 : Fin (D + 1)) i) := by
    ext i j
    rw [Matrix.of_apply, hv, hv, ← Pi.sub_apply, cellMap_diff, Matrix.mul_apply]
    simp [Matrix.mulVec, dotProduct]
  rw [e, Matrix.det_mul]

/-- The image of a cell. -/
def mapCell (A : Matrix (Fin D) (Fin D) ℝ) (b : Fin D → ℝ) (s : SimplexCell (Fin D → ℝ)) : SimplexCell (Fin D → ℝ) :=
  ⟨s.sd, s.verts.map (cellMap A b), s.topo⟩

theorem mapCell_mapped (hA : A.det ≠ 0) : MappedCell A b s (mapCell A b s) := ⟨hA, rfl, rfl, rfl⟩

end
end FIAT
