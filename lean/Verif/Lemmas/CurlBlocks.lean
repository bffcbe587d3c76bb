/-
The blocks of nodes of the H(curl) elements: reference points, edges, faces, interior (C23).
-/
import Verif.Lemmas.TangPull
import Verif.Model.Nedelec
import Mathlib.Data.List.GetD

namespace FIAT
open MvPolynomial

section refpoints
variable {D d : ℕ}

theorem zipWith_ofFn {α β γ : Type} {n : ℕ} (f : α → β → γ) (a : Fin n → α) (b : Fin n → β) :
    List.zipWith f (List.ofFn a) (List.ofFn b) = List.ofFn fun i => f (a i) (b i) := by
  apply List.ext_getElem
  · simp
  · intro i h1 h2
    simp

/-- The points of the lattice in reference coordinates. -/
noncomputable def refLattice (d n : ℕ) : List (Fin d → ℝ) :=
  (latticeIter 1 (n + 1 - 1) d).map fun idx j => ((idx.getD j 0 : ℕ) : ℝ) * (n : ℝ)⁻¹

theorem lattice_ref (v0 : Fin D → ℝ) (w : Fin d → Fin D → ℝ) (n : ℕ) (hd : 1 ≤ d) :
    makeLattice ℝ v0 (List.ofFn w) n 1 = (refLattice d n).map fun y => v0 + ∑ j, y j • (w j - v0) := by
  unfold makeLattice refLattice
  rw [List.map_map]
  simp only [List.length_map, List.length_ofFn]
  refine List.map_congr_left fun idx hidx => ?_
  rw [Function.comp_apply]
  congr 1
  obtain ⟨h1, -, -⟩ := (lattice_indices_mem n 1 d hd idx).1 hidx
  have e : idx = List.ofFn fun j : Fin d => idx.getD j 0 := by
    apply List.ext_getElem
    · simp [h1]
    · intro i h1 h2
      rw [List.getElem_ofFn, List.getD_eq_getElem _ _ h1]
  unfold natCombo
  conv_lhs => rw [e]
  rw [List.map_ofFn, zipWith_ofFn, List.sum_ofFn]
  refine Finset.sum_congr rfl fun j _ => ?_
  simp only [Function.comp_apply]
  rw [smul_smul]

/-- The barycentric coordinates of the UFC simplex. -/
theorem BaryForms.ufc {g : Fin (d + 1) → Fin d → ℝ} {b : Fin (d + 1) → ℝ} (hb : BaryForms (ufcVerts ℝ d) g b) (y : Fin d → ℝ) :
    (∀ j : Fin d, eval y (linForm (g j.succ) (b j.succ)) = y j) ∧ eval y (linForm (g 0) (b 0)) = 1 - ∑ j, y j := by
  have hc2 : ∀ j : Fin d, eval y (linForm (g j.succ) (b j.succ)) = y j := by
    intro j
    have := congrFun (hb.comb y) j
    rw [Finset.sum_apply, Fin.sum_univ_succ] at this
    conv_rhs => rw [← this]
    rw [Finset.sum_eq_single j]
    · simp [ufcVerts]
    · intro l _ hl
      have : ufcVerts ℝ d l.succ j = 0 := by
        change (if j = _ then (1 : ℝ) else 0) = 0
        rw [if_neg]
        simpa using hl.symm
      simp [this]
    · simp
  refine ⟨hc2, ?_⟩
  have hb0 := hb.sum_one y
  rw [Fin.sum_univ_succ, Finset.sum_congr rfl fun j _ => hc2 j] at hb0
  linarith

theorem refLattice_spec (hd : 1 ≤ d) (k : ℕ) : (refLattice d (k + d + 1)).length = (k + d).choose d ∧
    (∀ p : MvPolynomial (Fin d) ℝ, p.totalDegree ≤ k → (∀ y ∈ refLattice d (k + d + 1), eval y p = 0) → p = 0) ∧
    ∀ g b, BaryForms (ufcVerts ℝ d) g b → ∀ y ∈ refLattice d (k + d + 1), ∀ i, eval y (linForm (g i) (b i)) ≠ 0 := by
  have hn : ((k + d + 1 : ℕ) : ℝ) ≠ 0 := by positivity
  refine ⟨?_, ?_, ?_⟩
  · unfold refLattice
    rw [List.length_map, lattice_indices_length _ _ _ hd, if_pos (by omega)]
    congr 1; omega
  · intro p hp hz
    apply MvPolynomial.funext
    intro y
    have h0 : (fun y : Fin d → ℝ => (0 : Fin d → ℝ) + ∑ j, y j • ((Pi.single j 1 : Fin d → ℝ) - 0)) = id := by
      funext y l
      simp [Finset.sum_apply, Pi.single_apply]
    have hl := lattice_ref (0 : Fin d → ℝ) (fun j : Fin d => (Pi.single j 1 : Fin d → ℝ)) (k + d + 1) hd
    rw [h0, List.map_id] at hl
    have := lattice_vanish (0 : Fin d → ℝ) (List.ofFn fun j : Fin d => (Pi.single j 1 : Fin d → ℝ)) (by
      intro h; rw [← List.length_eq_zero_iff, List.length_ofFn] at h; omega) (k + d + 1) 1 k (by omega)
      (by rw [List.length_ofFn]; omega) p hp (by rw [hl]; exact hz) (fun i => y (i.cast (List.length_ofFn ..)))
    rw [map_zero, ← this]
    congr 2
    rw [zero_add]
    have e : y = ∑ j, y j • (Pi.single j 1 : Fin d → ℝ) := by
      funext l; simp [Finset.sum_apply, Pi.single_apply]
    conv_lhs => rw [e]
    refine Fintype.sum_equiv (finCongr (List.length_ofFn (f := fun j : Fin d => (Pi.single j 1 : Fin d → ℝ))).symm) _ _ fun j => ?_
    simp
  · intro g b hb y hy i
    obtain ⟨h1, h2⟩ := hb.ufc y
    obtain ⟨idx, hi, rfl⟩ := List.mem_map.1 hy
    obtain ⟨i1, i2, i3⟩ := (lattice_indices_mem (k + d + 1) 1 d hd idx).1 hi
    refine Fin.cases ?_ (fun j => ?_) i
    · rw [h2, ← Finset.sum_mul]
      have e : ∑ j : Fin d, ((idx.getD j 0 : ℕ) : ℝ) = (idx.sum : ℝ) := by
        rw [← Nat.cast_sum]
        congr 1
        have e : idx = List.ofFn fun j : Fin d => idx.getD j 0 := by
          apply List.ext_getElem
          · simp [i1]
          · intro i h1 h2
            rw [List.getElem_ofFn, List.getD_eq_getElem _ _ h1]
        conv_rhs => rw [e, List.sum_ofFn]
      rw [e]
      intro h
      have h3 : (idx.sum : ℝ) = ((k + d + 1 : ℕ) : ℝ) := by
        field_simp at h
        linarith
      have : idx.sum = k + d + 1 := by exact_mod_cast h3
      omega
    · rw [h1]
      refine mul_ne_zero ?_ (inv_ne_zero hn)
      have hj : (j : ℕ) < idx.length := by rw [i1]; exact j.2
      have := i2 _ (List.getElem_mem hj)
      rw [List.getD_eq_getElem _ _ hj]
      have : idx[(j : ℕ)] ≠ 0 := by omega
      exact_mod_cast this

/-- `make_points` on an entity, in reference coordinates. -/
theorem make_points_ref {s : SimplexCell (Fin D → ℝ)} (hs : ProperSimplex ℝ s) {e : ℕ} (hd : 1 ≤ d) (hdD : d < D)
    (τ : Fin (d + 1) → ℕ) (h : entityVerts s d e = some (List.ofFn fun j => s.v (τ j))) (n : ℕ) :
    makePoints ℝ s d e n = some ((refLattice d n).map (entMap fun j => s.v (τ j))) := by
  unfold makePoints
  rw [if_neg (by omega), if_pos (by rw [hs.1]; exact hdD)]
  unfold entityVerts at h
  simp only [Option.bind_eq_bind]
  rw [Option.bind_eq_some_iff] at h
  obtain ⟨es, a1, a2⟩ := h
  rw [Option.bind_eq_some_iff] at a2
  obtain ⟨t', a2, a3⟩ := a2
  rw [a1, Option.bind_some, a2, Option.bind_some, a3, Option.bind_some, List.ofFn_succ]
  unfold makeLatticeL
  simp only
  rw [lattice_ref _ _ _ hd]
  rfl

theorem mapToEntity_ref {s : SimplexCell (Fin D → ℝ)} {e : ℕ}
    (τ : Fin (d + 1) → ℕ) (h : entityVerts s d e = some (List.ofFn fun j => s.v (τ j))) (pts : List (Fin d → ℝ)) :
    mapToEntity s d e pts = some (pts.map (entMap fun j => s.v (τ j))) := by
  unfold mapToEntity
  rw [h, Option.bind_some, dif_pos (List.length_ofFn ..)]
  congr 1
  refine List.map_congr_left fun y _ => ?_
  rw [entMap_eq]
  congr 1
  funext j
  rw [List.get_ofFn]
  rfl

end refpoints

section blocks
variable {D : ℕ}

/-- What the block of nodes of an entity of dimension `d` has to satisfy, for the fields in `V`: `n` nodes, which vanish for a
field, whose tangential component vanishes on the lower entities, exactly when its tangential component vanishes on the entity. -/
def TangBlock (s : SimplexCell (Fin D → ℝ)) (V : (Fin D → MvPolynomial (Fin D) ℝ) → Prop) (n d e : ℕ)
    (blk : List (Functional ℝ (Fin D → ℝ))) : Prop :=
  blk.length = n ∧ (∀ l ∈ blk, PlainNode l) ∧
  ∀ t, HasEntity s.topo d e t → ∀ w, V w →
    (∀ d' e' t', HasEntity s.topo d' e' t' → 1 ≤ d' → d' < d → (∀ a ∈ t', a ∈ t) → TangOn s t' w) →
    ((∀ l ∈ blk, l.onField (fieldOf w) = 0) ↔ TangOn s t w)

theorem edgeTangent_ref {s : SimplexCell (Fin D → ℝ)} {e : ℕ} (τ : Fin 2 → ℕ)
    (h : entityVerts s 1 e = some (List.ofFn fun j => s.v (τ j))) : edgeTangent s e = some (s.v (τ 1) - s.v (τ 0)) := by
  unfold edgeTangent
  rw [h, Option.bind_some]
  rfl

theorem faceTangents_ref {s : SimplexCell (Fin 3 → ℝ)} {e : ℕ} (τ : Fin 3 → ℕ)
    (h : entityVerts s 2 e = some (List.ofFn fun j => s.v (τ j))) :
    faceTangents s e = some (s.v (τ 1) - s.v (τ 0), s.v (τ 2) - s.v (τ 0)) := by
  unfold faceTangents
  rw [if_neg (by simp), h, Option.bind_some]
  rfl

/-- The field along an edge. -/
theorem eval_edge {s : SimplexCell (Fin D → ℝ)} (τ : Fin 2 → ℕ) (w : Fin D → MvPolynomial (Fin D) ℝ) (y : Fin 1 → ℝ) :
    ∑ j, (s.v (τ 1) - s.v (τ 0)) j * eval (entMap (fun j => s.v (τ j)) y) (w j) = eval y (tangPull (fun j => s.v (τ j)) w 0) := by
  rw [eval_tangPull]
  rfl

/-- The edge nodes of the point variants. -/
theorem edge_points_block (hD : 2 ≤ D) {s : SimplexCell (Fin D → ℝ)} (hs : ProperSimplex ℝ s)
    (V : (Fin D → MvPolynomial (Fin D) ℝ) → Prop) (k : ℕ)
    (hV : ∀ w, V w → ∀ vc : Fin 2 → Fin D → ℝ, (tangPull vc w 0).totalDegree ≤ k) {e : ℕ} {t : List ℕ}
    (h : HasEntity s.topo 1 e t) :
    ∃ blk, edgePointNodes s k e = some blk ∧ TangBlock s V (k + 1) 1 e blk := by
  obtain ⟨τ, t1, t2, rfl, t4⟩ := entity_tuple hs h
  obtain ⟨r1, r2, -⟩ := refLattice_spec (d := 1) le_rfl k
  refine ⟨((refLattice 1 (k + 1 + 1)).map (entMap fun j => s.v (τ j))).map fun pt =>
    pointDirectionEvaluation D (vecNat (s.v (τ 1) - s.v (τ 0))) pt, ?_, ?_, ?_, ?_⟩
  · unfold edgePointNodes
    rw [make_points_ref hs le_rfl (by omega) τ t4, Option.bind_some, edgeTangent_ref τ t4, Option.map_some]
  · rw [List.length_map, List.length_map, r1]; simp
  · intro l hl
    obtain ⟨pt, -, rfl⟩ := List.mem_map.1 hl
    exact point_direction_plain _ _
  · intro t' ht' w hw _
    rw [← hasEntity_unique h ht', tangOn_iff τ t1]
    constructor
    · intro hz
      funext a
      rw [show a = 0 by omega]
      refine r2 _ (hV w hw _) fun y hy => ?_
      rw [← eval_edge, ← point_direction_field]
      exact hz _ (List.mem_map_of_mem (List.mem_map_of_mem hy))
    · intro hz l hl
      obtain ⟨pt, hpt, rfl⟩ := List.mem_map.1 hl
      obtain ⟨y, hy, rfl⟩ := List.mem_map.1 hpt
      rw [point_direction_field, eval_edge, hz, Pi.zero_apply, map_zero]

/-- The edge nodes of the integral variants. -/
theorem edge_moments_block {s : SimplexCell (Fin D → ℝ)} (hs : ProperSimplex ℝ s)
    (V : (Fin D → MvPolynomial (Fin D) ℝ) → Prop) (k : ℕ)
    (hV : ∀ w, V w → ∀ vc : Fin 2 → Fin D → ℝ, (tangPull vc w 0).totalDegree ≤ k) {e : ℕ} {t : List ℕ}
    (h : HasEntity s.topo 1 e t) (Q : QRule ℝ (Fin 1 → ℝ)) {N : ℕ} (hQ : GoodRule Q (ufcVerts ℝ 1) N) (hN : 2 * k ≤ N)
    (hl : Q.wts.length = Q.pts.length) (hnd : Q.pts.Nodup) (φ : Fin ((k + 1).choose 1) → MvPolynomial (Fin 1) ℝ)
    (T : Fin ((k + 1).choose 1) → Unit → ℕ → ℝ) (hspan : Submodule.span ℝ (Set.range φ) = restrictTotalDegree (Fin 1) ℝ k)
    (hT : ∀ i (j : ℕ) x, Q.pts[j]? = some x → T i () j = eval x (φ i)) :
    ∃ blk, edgeMomentNodes s Q T e = some blk ∧ TangBlock s V (k + 1) 1 e blk := by
  obtain ⟨τ, t1, t2, rfl, t4⟩ := entity_tuple hs h
  have hnd' : (Q.pts.map (entMap fun j => s.v (τ j))).Nodup := hnd.map (entMap_injective hs τ t1 t2)
  have hl' : Q.wts.length = (Q.pts.map (entMap fun j => s.v (τ j))).length := by rw [hl, List.length_map]
  have hpt : ∀ i, ((zipRule (Q.pts.map (entMap fun j => s.v (τ j))) Q.wts (T i ())).map fun q => q.1).Nodup := fun i => by
    rw [zipRule_points _ _ hl']; exact hnd'
  have hφ : ∀ i, (φ i).totalDegree ≤ k := by
    intro i
    rw [← mem_restrictTotalDegree, ← hspan]
    exact Submodule.subset_span ⟨i, rfl⟩
  refine ⟨(List.finRange ((k + 1).choose 1)).map fun i => integralMomentOfDirection D (vecNat (s.v (τ 1) - s.v (τ 0)))
    (zipRule (Q.pts.map (entMap fun j => s.v (τ j))) Q.wts (T i ())), ?_, by simp, ?_, ?_⟩
  · unfold edgeMomentNodes
    rw [mapToEntity_ref τ t4, Option.bind_some, edgeTangent_ref τ t4, Option.map_some]
  · intro l hl
    obtain ⟨i, -, rfl⟩ := List.mem_map.1 hl
    exact moment_direction_plain _ _ (hpt i)
  · intro t' ht' w hw _
    rw [← hasEntity_unique h ht', tangOn_iff τ t1]
    have hval : ∀ i, (integralMomentOfDirection D (vecNat (s.v (τ 1) - s.v (τ 0)))
        (zipRule (Q.pts.map (entMap fun j => s.v (τ j))) Q.wts (T i ()))).onField (fieldOf w) =
        ∫ y in convexHull ℝ (Set.range (ufcVerts ℝ 1)), eval y (φ i * tangPull (fun j => s.v (τ j)) w 0) := by
      intro i
      rw [moment_direction_field w _ _ (hpt i), quadSum_zip_map, quadSum_zip Q.pts Q.wts hl _ (fun x => eval x (φ i)) _ (hT i),
        ← hQ.1 _ ((totalDegree_mul _ _).trans ((Nat.add_le_add (hφ i) (hV w hw _)).trans (by omega)))]
      congr 1
      funext y
      rw [map_mul, eval_edge]
    constructor
    · intro hz
      funext a
      rw [show a = 0 by omega]
      exact moments_zero (ufcVerts ℝ 1) (ufcVerts_affineIndependent 1) φ hspan _ (hV w hw _) fun i => by
        rw [← hval]; exact hz _ (List.mem_map_of_mem (List.mem_finRange i))
    · intro hz l hl
      obtain ⟨i, hi, rfl⟩ := List.mem_map.1 hl
      rw [hval, hz]
      simp

/-- The edge blocks of both variants. -/
theorem edge_blocks_spec (hD : 2 ≤ D) {s : SimplexCell (Fin D → ℝ)} (hs : ProperSimplex ℝ s) (hnum : NumberedSimplex s)
    {gj : ℕ → ℕ → List ℝ} (hgj : NodesOK gj) (V : (Fin D → MvPolynomial (Fin D) ℝ) → Prop) (k : ℕ)
    (hV : ∀ w, V w → ∀ vc : Fin 2 → Fin D → ℝ, (tangPull vc w 0).totalDegree ≤ k)
    (v : DualVariant) (hv : ∀ q, v = .integral q → k + 1 ≤ q) :
    ∃ F, edgeBlocks gj s k v = some ((List.range ((D + 1).choose 2)).map F) ∧
      ∀ e < (D + 1).choose 2, TangBlock s V (k + 1) 1 e (F e) := by
  have hnE : numEnts s 1 = some ((D + 1).choose 2) := (hnum.1 1 (by omega)).1
  have hex : ∀ e < (D + 1).choose 2, ∃ t, HasEntity s.topo 1 e t := fun e he => ((hnum.1 1 (by omega)).2 e).2 he
  cases v with
  | point =>
    obtain ⟨F, h1, h2⟩ := mapM_choose ((D + 1).choose 2) (fun i => edgePointNodes s k i) (TangBlock s V (k + 1) 1) (by
      intro e he
      obtain ⟨t, ht⟩ := hex e he
      exact edge_points_block hD hs V k hV ht) []
    refine ⟨F, ?_, fun e he => (h2 e he).2⟩
    simp only [edgeBlocks, hnE, Option.bind_some, h1]
  | integral q =>
    have hq := hv q rfl
    obtain ⟨G, g1, g2, g3, g4, g5⟩ := ufc_cell_spec (d := 1) (by omega)
    obtain ⟨Q, q1, q2, q3, q4⟩ := simplex_rule_spec hgj (D := 1) (by omega) (ufcVerts ℝ 1) g5 q (by omega)
    obtain ⟨S, T, s1, s2, φ, s3, s4⟩ := scalar_values (by omega) G g2 g3 k Q.pts
    rw [← g4] at q1
    obtain ⟨F, h1, h2⟩ := mapM_choose ((D + 1).choose 2) (fun i => edgeMomentNodes s Q T i) (TangBlock s V (k + 1) 1) (by
      intro e he
      obtain ⟨t, ht⟩ := hex e he
      exact edge_moments_block hs V k hV ht Q q2 (by omega) q3 q4 φ T s3 s4) []
    refine ⟨F, ?_, fun e he => (h2 e he).2⟩
    simp only [edgeBlocks, g1, q1, s1, s2, hnE, Option.bind_eq_bind, Option.bind_some, h1]

theorem ned_edge_trace {k : ℕ} (w : Fin D → MvPolynomial (Fin D) ℝ) (hw : IsNed k w) (vc : Fin 2 → Fin D → ℝ) :
    (tangPull vc w 0).totalDegree ≤ k := by
  obtain ⟨p, A, hp, hA, ha, hu⟩ := tangPull_ned vc hw
  have h0 : A 0 0 = 0 := self_eq_neg.1 (ha 0 0)
  have := hu 0
  rw [this]
  simp [h0, hp]

end blocks
end FIAT
