/-
The dual set of the cubic Hermite element: blocks and traces.
-/
import Verif.Lemmas.ScalarBlocks

namespace FIAT
open MvPolynomial
section
variable {D : ℕ}

/-- The nodes of the entities. -/
noncomputable def hermiteBlk (s : SimplexCell (Fin D → ℝ)) (x : ℕ × ℕ) : List (Functional ℝ (Fin D → ℝ)) :=
  if x.1 = 0 then pointEvaluation (s.v x.2) :: (List.range D).map fun i => pointDerivative (s.v x.2) (unitAlpha D i)
  else if x.1 = 2 then ((((makePoints ℝ s 2 x.2 3).getD []).head?).toList).map pointEvaluation
  else []

theorem hermite_dual_blocks (hD : 1 ≤ D) {s : SimplexCell (Fin D → ℝ)} (hs : ProperSimplex ℝ s) (hnum : NumberedSimplex s) :
    ∃ nodes ids, hermiteDual s = some (nodes, ids) ∧ EntityBlocks s.topo (allEnts D) (hermiteBlk s) nodes ids := by
  obtain ⟨st0, a1, a2⟩ := loop_dim hnum (d := 0) (by omega) (blk := hermiteBlk s)
    (fun v => (jet1 s v).map fun l => [(1 + D, l)]) (by
      intro v hv
      have hv' : v < D + 1 := by simpa using hv
      refine ⟨[(1 + D, pointEvaluation (s.v v) :: (List.range D).map fun i => pointDerivative (s.v v) (unitAlpha D i))], ?_, ?_, ?_⟩
      · simp [jet1, vertex_get hs hv']
      · simp; omega
      · simp [hermiteBlk]) (loopInv_nil _)
  obtain ⟨st1, b1, b2⟩ := loop_dim hnum (d := 1) (by omega) (blk := hermiteBlk s) (fun _ => some [])
    (fun e _ => ⟨[], rfl, by simp, by simp [hermiteBlk]⟩) a2
  suffices hst : ∃ st, (if 1 < D then do
      let st ← entityLoop s 2 (fun f => (makePoints ℝ s 2 f 3).bind fun pts => pts.head?.map fun pt => [(1, [pointEvaluation pt])]) st1
      (List.range' 3 (D + 1 - 3)).foldlM (fun (st : ℕ × List (Functional ℝ (Fin D → ℝ)) × EntityIds ℕ) (dim : ℕ) =>
        entityLoop s dim (fun _ => some []) st) st
    else some st1) = some st ∧ LoopInv (hermiteBlk s) (allEnts D) st by
    obtain ⟨st, c1, c2⟩ := hst
    refine ⟨st.2.1, st.2.2, ?_, c2.blocks hnum (entsFlat_nodup _) (mem_allEnts hnum)⟩
    unfold hermiteDual
    simp only [Option.bind_eq_bind] at c1
    simp only [a1, b1, c1, Option.bind_eq_bind, Option.bind_some]
  by_cases h1 : 1 < D
  · obtain ⟨st2, c1, c2⟩ := loop_dim hnum (d := 2) (by omega) (blk := hermiteBlk s)
      (fun f => (makePoints ℝ s 2 f 3).bind fun pts => pts.head?.map fun pt => [(1, [pointEvaluation pt])]) (by
        intro f hf
        obtain ⟨t, ht⟩ := ((hnum.1 2 (by omega)).2 f).2 hf
        have hp := centroid_points hs ht
        refine ⟨[(1, [pointEvaluation ((1 / (((2 : ℕ) : ℝ) + 1)) • (t.map s.v).sum)])], ?_, by simp, ?_⟩
        · rw [show (3 : ℕ) = 2 + 1 from rfl, hp]; rfl
        · simp only [hermiteBlk, List.flatMap_cons, List.flatMap_nil, List.append_nil]
          rw [if_neg (by norm_num), if_pos trivial, show (3 : ℕ) = 2 + 1 from rfl, hp]
          rfl) b2
    obtain ⟨st3, d1, d2⟩ := loop_rest hnum (blk := hermiteBlk s) (D + 1 - 3) 3 (by omega) (by
      intro d e hd
      simp only [hermiteBlk]
      rw [if_neg (by omega), if_neg (by omega)]) c2
    refine ⟨st3, ?_, ?_⟩
    · rw [if_pos h1]
      simp only [c1, d1, Option.bind_eq_bind, Option.bind_some]
    · rw [show 3 + (D + 1 - 3) = D + 1 by omega] at d2; exact d2
  · refine ⟨st1, if_neg h1, ?_⟩
    have : D = 1 := by omega
    subst this
    exact b2

theorem hermite_vertex_block (s : SimplexCell (Fin D → ℝ)) (v : ℕ) (p : MvPolynomial (Fin D) ℝ) :
    (hermiteBlk s (0, v)).map (fun node => node.onField (scalarField p)) =
      eval (s.v v) p :: List.ofFn fun i : Fin D => eval (s.v v) (pderiv i p) := by
  simp only [hermiteBlk, if_true, List.map_cons, point_eval_scalar, List.map_map]
  congr 1
  apply List.ext_getElem
  · simp
  · intro i h1 h2
    have hi : i < D := by simpa using h1
    simp only [List.getElem_map, List.getElem_range, List.getElem_ofFn, Function.comp_apply, point_deriv_scalar]
    rw [show unitAlpha D i = unitAlpha D (⟨i, hi⟩ : Fin D) from rfl, iterDeriv_unit]

theorem hermite_face_block {s : SimplexCell (Fin D → ℝ)} (hs : ProperSimplex ℝ s) {f : ℕ} {t : List ℕ} (h : HasEntity s.topo 2 f t)
    (p : MvPolynomial (Fin D) ℝ) :
    (hermiteBlk s (2, f)).map (fun node => node.onField (scalarField p)) = [eval ((1 / (3 : ℝ)) • (t.map s.v).sum) p] := by
  have hp := centroid_points hs h
  simp only [hermiteBlk]
  rw [if_neg (by norm_num), if_pos trivial, show (3 : ℕ) = 2 + 1 from rfl, hp]
  simp only [Option.getD_some, List.head?_cons, Option.toList_some, List.map_cons, List.map_nil, point_eval_scalar]
  norm_num

/-- The dofs of an entity and its sub-entities determine a cubic polynomial there. -/
theorem hermite_trace {s : SimplexCell (Fin D → ℝ)} (hs : ProperSimplex ℝ s) (p : MvPolynomial (Fin D) ℝ)
    (hp : p.totalDegree ≤ 3) (d : ℕ) : ∀ (e : ℕ) (t : List ℕ), HasEntity s.topo d e t →
    (∀ a ∈ t, eval (s.v a) p = 0 ∧ ∀ i, eval (s.v a) (pderiv i p) = 0) →
    (∀ f t', HasEntity s.topo 2 f t' → (∀ a ∈ t', a ∈ t) → eval ((1 / (3 : ℝ)) • (t'.map s.v).sum) p = 0) →
    ∀ x, OnEntity s t x → eval x p = 0 := by
  induction d with
  | zero =>
    intro e t h h0 _ x hx
    have := hs.2.1.vertex _ _ h
    subst this
    obtain ⟨c, h1, rfl⟩ := hx
    simp only [List.map_cons, List.map_nil, List.sum_cons, List.sum_nil, add_zero] at h1 ⊢
    rw [h1, one_smul]
    exact (h0 e (by simp)).1
  | succ d ih =>
    intro e t h h0 h2 x hx
    by_cases hd1 : d = 0
    · subst hd1
      obtain ⟨a, c, rfl, hac, -, -, -⟩ := edge_points hs h 1 le_rfl
      obtain ⟨w, rfl⟩ := (onEntity_pair s hac x).1 hx
      have hj : ∀ z, (eval z p = 0 ∧ ∀ i, eval z (pderiv i p) = 0) → ∀ j < 2, eval z ((dirD (s.v c - s.v a))^[j] p) = 0 := by
        intro z hz j hj
        match j, hj with
        | 0, _ => exact hz.1
        | 1, _ =>
          rw [Function.iterate_one, eval_dirD]
          exact Finset.sum_eq_zero fun i _ => by rw [hz.2 i, mul_zero]
      refine edge_zero (s.v a) (s.v c - s.v a) p 3 2 1 le_rfl hp (hj _ (h0 a (by simp))) ?_ (by intro i hi1 hi2; omega) (by norm_num) w
      rw [add_sub_cancel]
      exact hj _ (h0 c (by simp))
    · obtain ⟨τ, hτ, hlt, rfl, -⟩ := entity_tuple hs h
      obtain ⟨g, b, hb⟩ := baryForms_exist (ufcVerts ℝ (d + 1)) (ufcVerts_affineIndependent (d + 1))
      obtain ⟨r, r1, r2⟩ := entity_bubble (s := s) (by omega) hb τ hτ p 3 hp (by
        intro i t' hn ht' z hz
        have hlen : t'.length = d + 1 := by
          have : t'.toFinset = (List.ofFn τ).toFinset.erase (τ i) := by
            ext a
            rw [List.mem_toFinset, ht', Finset.mem_erase, List.mem_toFinset]
            tauto
          rw [← List.toFinset_card_of_nodup hn, this, Finset.card_erase_of_mem (List.mem_toFinset.2 ((List.mem_ofFn' τ _).2 ⟨i, rfl⟩)),
            List.toFinset_card_of_nodup (List.nodup_ofFn.2 hτ), List.length_ofFn]
          omega
        obtain ⟨e', t'', k1, k2⟩ := sub_entity hs t' hn (by rintro rfl; simp at hlen) (by
          intro a ha
          obtain ⟨j, rfl⟩ := (List.mem_ofFn' τ a).1 ((ht' a).1 ha).1
          exact hlt j)
        rw [hlen, Nat.add_sub_cancel] at k1
        refine ih e' t'' k1 (fun a ha => h0 a ((ht' a).1 ((k2 a).1 ha)).1) (fun f u hu hsub => h2 f u hu fun a ha => ?_) z
          ((onEntity_congr s hn (hs.2.1.entity _ _ _ k1).1 (fun a => (k2 a).symm) z).1 hz)
        exact ((ht' a).1 ((k2 a).1 (hsub a ha))).1)
      obtain ⟨y, rfl⟩ := (onEntity_iff s τ hτ x).1 hx
      rw [r1]
      rcases r2 with rfl | r2
      · simp
      · have hd : d = 1 := by omega
        subst hd
        have hdeg : r.totalDegree = 0 := by omega
        rw [totalDegree_eq_zero_iff_eq_C] at hdeg
        set cst := coeff 0 r
        -- at the barycentre
        have hc := h2 e _ h fun a ha => ha
        set y0 : Fin 2 → ℝ := fun _ => 1 / 3
        have hy0 : entMap (fun j => s.v (τ j)) y0 = (1 / (3 : ℝ)) • ((List.ofFn τ).map s.v).sum := by
          rw [entMap_comb, List.map_ofFn, List.sum_ofFn, Fin.sum_univ_three, Fin.sum_univ_two, Fin.sum_univ_two]
          simp only [y0, Function.comp_apply, smul_add]
          norm_num [Fin.succ_one_eq_two]
          abel_nf
        rw [← hy0, r1, hdeg, eval_C] at hc
        have hne : ∀ i, eval y0 (linForm (g i) (b i)) = 1 / 3 := by
          have hl : ∀ l : Fin 2, y0 l = eval y0 (linForm (g l.succ) (b l.succ)) := by
            intro l
            have := congrFun (hb.comb y0) l
            rw [Finset.sum_apply, Fin.sum_univ_succ] at this
            rw [← this]
            simp only [Pi.smul_apply, smul_eq_mul]
            rw [Finset.sum_eq_single l]
            · simp [ufcVerts]
            · intro i _ hi; simp [ufcVerts, Ne.symm hi]
            · simp
          intro i
          refine Fin.cases ?_ (fun l => (hl l).symm) i
          have := hb.sum_one y0
          rw [Fin.sum_univ_three] at this
          have h1 := hl 0
          have h2 := hl 1
          simp only [y0, Fin.succ_zero_eq_one, Fin.succ_one_eq_two] at h1 h2 this ⊢
          linarith
        have : cst = 0 := by
          rcases mul_eq_zero.1 hc with hc | hc
          · exfalso
            obtain ⟨i, -, hi⟩ := Finset.prod_eq_zero_iff.1 hc
            rw [hne] at hi
            norm_num at hi
          · exact hc
        rw [hdeg, eval_C, this, mul_zero]

end
end FIAT
