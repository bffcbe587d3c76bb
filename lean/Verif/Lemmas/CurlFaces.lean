/-
The face and cell nodes of the Nedelec elements of the first kind (C23).
-/
import Verif.Lemmas.CurlBlocks
import Verif.Props.RTSpace

namespace FIAT
open MvPolynomial

section values
variable {D : ℕ}

theorem onVectorRows_length (N M : ℕ) : (onVectorRows N M).length = M * N := by
  unfold onVectorRows
  rw [List.length_map, List.length_range]
  simp [onNumMembers]

/-- The values of a vector-valued orthonormal set: member `p * N + l` is function `l` in component `p`. -/
theorem vector_values (hD : D = 1 ∨ D = 2 ∨ D = 3) (s : SimplexCell (Fin D → ℝ)) (hs : ProperSimplex ℝ s)
    (hv : Increasing fun i : Fin (D + 1) => s.v i) (k M : ℕ) (pts : List (Fin D → ℝ)) :
    ∃ S T, onPolynomialSet s k = some S ∧
      (PolySet.ofRows (D := M) D S.base S.dmats (onVectorRows ((k + D).choose D) M)).values pts = some T ∧
      ∃ φ : Fin ((k + D).choose D) → MvPolynomial (Fin D) ℝ,
      Submodule.span ℝ (Set.range φ) = restrictTotalDegree (Fin D) ℝ k ∧
      ∀ (i : Fin (onVectorRows ((k + D).choose D) M).length) (p : Fin M) (l : Fin ((k + D).choose D)),
        (i : ℕ) = p * (k + D).choose D + l → ∀ c (j : ℕ) x, pts[j]? = some x → T i c j = if c = p then eval x (φ l) else 0 := by
  obtain ⟨mats, h1, φ, -, h2, h3, h4⟩ := on_core hD s hs hv k
  obtain ⟨T, t1, t2⟩ := values_spec (by omega) φ (PolySet.ofRows (D := M) D (expTab s.verts k) mats
    (onVectorRows ((k + D).choose D) M)) rfl h3 h4 pts
  refine ⟨_, T, h1, t1, φ, h2.2, fun i p l hi c j x hx => ?_⟩
  rw [t2 i c j x hx]
  have hr : (onVectorRows ((k + D).choose D) M).get i = unitRow M _ p l := by
    have := onVectorRows_get ((k + D).choose D) M p l p.2 l.2
    rw [← hi, List.getElem?_eq_getElem i.2, Option.some.injEq] at this
    exact this
  have : (PolySet.ofRows (D := M) D (expTab s.verts k) mats (onVectorRows ((k + D).choose D) M)).member φ i c =
      ∑ l', C (((onVectorRows ((k + D).choose D) M).get i) c l') * φ l' := rfl
  rw [this, hr, map_sum, Finset.sum_eq_single l]
  · by_cases hc : c = p
    · rw [if_pos hc, hc]; simp [unitRow]
    · have : (c : ℕ) ≠ p := fun h => hc (Fin.ext h)
      rw [if_neg hc]; simp [unitRow, this]
  · intro l' _ hl'
    have : (l' : ℕ) ≠ l := fun h => hl' (Fin.ext h)
    simp [unitRow, this]
  · simp

/-- A moment against a vector-valued function. -/
theorem monk_field (w : Fin D → MvPolynomial (Fin D) ℝ) {P : Type} (pts : List P) (wts : List ℝ)
    (hl : wts.length = pts.length) (F : P → Fin D → ℝ) (hnd : (pts.map F).Nodup) (u : ℕ → ℕ → ℝ) (U : P → Fin D → ℝ)
    (hu : ∀ (j : ℕ) x, pts[j]? = some x → ∀ l : Fin D, u j l = U x l) :
    PlainNode (monkIntegralMoment D (((pts.map F).zip wts).zipIdx.map fun q => (q.1.1, q.1.2, u q.2))) ∧
    (monkIntegralMoment D (((pts.map F).zip wts).zipIdx.map fun q => (q.1.1, q.1.2, u q.2))).onField (fieldOf w) =
      (⟨pts, wts⟩ : QRule ℝ P).integrate fun y => ∑ l, U y l * eval (F y) (w l) := by
  have hpt : (((((pts.map F).zip wts).zipIdx).map fun q => (q.1.1, q.1.2, u q.2)).map fun q => q.1).Nodup := by
    have : ((((pts.map F).zip wts).zipIdx).map fun q => (q.1.1, q.1.2, u q.2)).map (fun q => q.1) = pts.map F := by
      rw [List.map_map]
      have e : ((fun q : (Fin D → ℝ) × ℝ × (ℕ → ℝ) => q.1) ∘ fun q : ((Fin D → ℝ) × ℝ) × ℕ => (q.1.1, q.1.2, u q.2)) =
          (fun q => q.1) ∘ fun q => q.1 := rfl
      rw [e, ← List.map_map, List.zipIdx_map_fst, List.map_fst_zip (by rw [List.length_map, hl])]
    rw [this]; exact hnd
  refine ⟨plain_of_pt _ (fill_wf _ _ _ hpt), ?_⟩
  unfold Functional.onField
  rw [monk_apply _ _ _ _ hpt, List.map_map]
  have e : ((pts.map F).zip wts).zipIdx = ((pts.zip wts).zipIdx).map fun q => ((F q.1.1, q.1.2), q.2) := by
    rw [List.zip_map_left, List.zipIdx_map]
    rfl
  rw [e, List.map_map]
  refine sum_zip_values pts wts hl (fun y => ∑ l, U y l * eval (F y) (w l))
    (fun y a j => a * dotField (fun c x => eval x (fieldOf w c)) D (u j) (F y)) ?_
  intro j x a hx
  beta_reduce
  congr 1
  unfold dotField
  rw [Finset.sum_range]
  refine Finset.sum_congr rfl fun l _ => ?_
  beta_reduce
  rw [fieldOf_apply, hu j x hx, mul_comm]

end values

section faces

theorem eval_face {D d : ℕ} {s : SimplexCell (Fin D → ℝ)} (τ : Fin (d + 1) → ℕ) (w : Fin D → MvPolynomial (Fin D) ℝ) (a : Fin d)
    (y : Fin d → ℝ) :
    ∑ j, (s.v (τ a.succ) - s.v (τ 0)) j * eval (entMap (fun j => s.v (τ j)) y) (w j) = eval y (tangPull (fun j => s.v (τ j)) w a) := by
  rw [eval_tangPull]
  rfl

/-- The face nodes of the point variant. -/
theorem face_points_block {s : SimplexCell (Fin 3 → ℝ)} (hs : ProperSimplex ℝ s) (k : ℕ) (hk : 1 ≤ k) {e : ℕ} {t : List ℕ}
    (h : HasEntity s.topo 2 e t) :
    ∃ blk, facePointNodes s k e = some blk ∧ TangBlock s (IsNed k) (2 * (k + 1).choose 2) 2 e blk := by
  obtain ⟨τ, t1, t2, rfl, t4⟩ := entity_tuple hs h
  obtain ⟨r1, r2, r3⟩ := refLattice_spec (d := 2) (by omega) (k - 1)
  rw [show k - 1 + 2 + 1 = k + 2 by omega] at r1 r2 r3
  refine ⟨((refLattice 2 (k + 2)).map (entMap fun j => s.v (τ j))).flatMap fun pt =>
    [pointDirectionEvaluation 3 (vecNat (s.v (τ 1) - s.v (τ 0))) pt, pointDirectionEvaluation 3 (vecNat (s.v (τ 2) - s.v (τ 0))) pt],
    ?_, ?_, ?_, ?_⟩
  · unfold facePointNodes
    rw [make_points_ref hs (by omega) (by omega) τ t4, Option.bind_some, faceTangents_ref τ t4, Option.map_some]
  · rw [List.length_flatMap]
    simp only [List.length_cons, List.length_nil, List.map_const', List.length_map, List.sum_replicate, r1, smul_eq_mul]
    rw [show k - 1 + 2 = k + 1 by omega]; ring
  · intro l hl
    obtain ⟨pt, -, hl⟩ := List.mem_flatMap.1 hl
    simp only [List.mem_cons, List.not_mem_nil, or_false] at hl
    rcases hl with rfl | rfl <;> exact point_direction_plain _ _
  · intro t' ht' w hw hlow
    have htt := hasEntity_unique h ht'
    subst htt
    rw [tangOn_iff τ t1]
    obtain ⟨g, b, hb⟩ := baryForms_exist (ufcVerts ℝ 2) (ufcVerts_affineIndependent 2)
    constructor
    · intro hz
      refine ned1_points_core le_rfl hb (ufcVerts_affineIndependent 2) (tangPull_ned _ hw) (tangZero_pull le_rfl hs τ t1 t2 hlow hb)
        (refLattice 2 (k + 2)) (r3 g b hb) (fun p hp hp0 => r2 p (by omega) hp0) ?_
      intro y hy j
      have hy' : entMap (fun j => s.v (τ j)) y ∈ (refLattice 2 (k + 2)).map (entMap fun j => s.v (τ j)) := List.mem_map_of_mem hy
      fin_cases j
      · have := hz _ (List.mem_flatMap.2 ⟨_, hy', List.mem_cons_self⟩)
        rw [point_direction_field] at this
        rw [← this]
        exact (eval_face τ w 0 y).symm
      · have := hz _ (List.mem_flatMap.2 ⟨_, hy', List.mem_cons_of_mem _ List.mem_cons_self⟩)
        rw [point_direction_field] at this
        rw [← this]
        exact (eval_face τ w 1 y).symm
    · intro hz l hl
      obtain ⟨pt, hpt, hl⟩ := List.mem_flatMap.1 hl
      obtain ⟨y, hy, rfl⟩ := List.mem_map.1 hpt
      have h0 := eval_face (s := s) τ w 0 y
      have h1 := eval_face (s := s) τ w 1 y
      rw [hz, Pi.zero_apply, map_zero] at h0 h1
      simp only [List.mem_cons, List.not_mem_nil, or_false] at hl
      rcases hl with rfl | rfl <;> rw [point_direction_field]
      · exact h0
      · exact h1

/-- The face nodes of the integral variant. -/
theorem face_monk_block {s : SimplexCell (Fin 3 → ℝ)} (hs : ProperSimplex ℝ s) (k : ℕ) (hk : 1 ≤ k) {e : ℕ} {t : List ℕ}
    (h : HasEntity s.topo 2 e t) (Q : QRule ℝ (Fin 2 → ℝ)) {N : ℕ} (hQ : GoodRule Q (ufcVerts ℝ 2) N) (hN : 2 * k ≤ N)
    (hl : Q.wts.length = Q.pts.length) (hnd : Q.pts.Nodup) {n m : ℕ} (hm : m = 3 * n) (hn : n = (k + 1).choose 2)
    (φ : Fin n → MvPolynomial (Fin 2) ℝ)
    (T : Fin m → Fin 3 → ℕ → ℝ) (hspan : Submodule.span ℝ (Set.range φ) = restrictTotalDegree (Fin 2) ℝ (k - 1))
    (hT : ∀ (i : Fin m) (p : Fin 3) (l : Fin n), (i : ℕ) = p * n + l → ∀ c (j : ℕ) x, Q.pts[j]? = some x →
      T i c j = if c = p then eval x (φ l) else 0) :
    ∃ blk, faceMonkNodes s Q T e = some blk ∧ TangBlock s (IsNed k) (2 * (k + 1).choose 2) 2 e blk := by
  obtain ⟨τ, t1, t2, rfl, t4⟩ := entity_tuple hs h
  have hnd' : (Q.pts.map (entMap fun j => s.v (τ j))).Nodup := hnd.map (entMap_injective hs τ t1 t2)
  have hφ : ∀ i, (φ i).totalDegree ≤ k - 1 := by
    intro i
    rw [← mem_restrictTotalDegree, ← hspan]
    exact Submodule.subset_span ⟨i, rfl⟩
  have h2m : 2 * m / 3 = 2 * n := by omega
  -- the node with index `p * n + l`
  let node : Fin m → Functional ℝ (Fin 3 → ℝ) := fun i =>
      monkIntegralMoment 3 (((Q.pts.map (entMap fun j => s.v (τ j))).zip Q.wts).zipIdx.map fun q =>
        (q.1.1, q.1.2, fun (l : ℕ) => T i 0 q.2 * vecNat (s.v (τ 1) - s.v (τ 0)) l + T i 1 q.2 * vecNat (s.v (τ 2) - s.v (τ 0)) l))
  have hidx : ∀ i : Fin m, (i : ℕ) < 2 * n → ∃ (p : Fin 2) (l : Fin n), (i : ℕ) = p * n + l := by
    intro i hi
    by_cases hin : (i : ℕ) < n
    · exact ⟨0, ⟨i, hin⟩, by simp⟩
    · refine ⟨1, ⟨i - n, by omega⟩, ?_⟩
      simp only [Fin.val_one]
      omega
  have hnode : ∀ (w : Fin 3 → MvPolynomial (Fin 3) ℝ), IsNed k w → ∀ (i : Fin m) (p : Fin 2) (l : Fin n), (i : ℕ) = p * n + l →
      PlainNode (node i) ∧ (node i).onField (fieldOf w) =
        ∫ y in convexHull ℝ (Set.range (ufcVerts ℝ 2)), eval y (tangPull (fun j => s.v (τ j)) w p * φ l) := by
    intro w hw i p l hi
    have := monk_field w Q.pts Q.wts hl (entMap fun j => s.v (τ j)) hnd'
      (fun j l' => T i 0 j * vecNat (s.v (τ 1) - s.v (τ 0)) l' + T i 1 j * vecNat (s.v (τ 2) - s.v (τ 0)) l')
      (fun y l' => eval y (φ l) * (s.v (τ p.succ) - s.v (τ 0)) l') (by
        intro j x hx l'
        have hc : ∀ c, T i c j = if c = p.castSucc then eval x (φ l) else 0 := fun c => hT i p.castSucc l (by simpa using hi) c j x hx
        rw [hc 0, hc 1]
        have hv : ∀ u : Fin 3 → ℝ, vecNat u l' = u l' := fun u => by rw [vecNat, dif_pos l'.2]
        rw [hv, hv]
        fin_cases p
        · simp
        · simp)
    refine ⟨this.1, this.2.trans ?_⟩
    have hdeg : (tangPull (fun j => s.v (τ j)) w p * φ l).totalDegree ≤ N := by
      refine (totalDegree_mul _ _).trans ?_
      have h1 := (ned_dotX (tangPull_ned (fun j => s.v (τ j)) hw)).1 p
      have := hφ l
      omega
    refine Eq.trans ?_ (hQ.1 _ hdeg)
    congr 1
    funext y
    rw [map_mul, ← eval_face, Finset.sum_mul]
    exact Finset.sum_congr rfl fun j _ => by ring
  have hmem : ∀ l, l ∈ ((List.finRange m).take (2 * m / 3)).map node ↔ ∃ i : Fin m, (i : ℕ) < 2 * n ∧ l = node i := by
    intro l
    rw [h2m, List.mem_map]
    constructor
    · rintro ⟨i, hi, rfl⟩
      obtain ⟨j, hj, hj2⟩ := List.mem_iff_getElem.1 hi
      rw [List.getElem_take, List.getElem_finRange] at hj2
      rw [List.length_take] at hj
      refine ⟨i, ?_, rfl⟩
      rw [← hj2]
      simp only [Fin.val_cast]
      omega
    · rintro ⟨i, hi, rfl⟩
      refine ⟨i, List.mem_iff_getElem.2 ⟨i, ?_, ?_⟩, rfl⟩
      · rw [List.length_take, List.length_finRange]; have := i.2; omega
      · rw [List.getElem_take, List.getElem_finRange]; rfl
  refine ⟨((List.finRange m).take (2 * m / 3)).map node, ?_, ?_, ?_, ?_⟩
  · unfold faceMonkNodes
    rw [mapToEntity_ref τ t4, Option.bind_some, faceTangents_ref τ t4, Option.map_some]
  · rw [List.length_map, List.length_take, List.length_finRange, h2m, ← hn]
    omega
  · intro l hl
    obtain ⟨i, hi, rfl⟩ := (hmem l).1 hl
    obtain ⟨p, l, hpl⟩ := hidx i hi
    exact (hnode 0 (mem_nedSub.1 (Submodule.zero_mem _)) i p l hpl).1
  · intro t' ht' w hw hlow
    have htt := hasEntity_unique h ht'
    subst htt
    rw [tangOn_iff τ t1]
    obtain ⟨g, b, hb⟩ := baryForms_exist (ufcVerts ℝ 2) (ufcVerts_affineIndependent 2)
    constructor
    · intro hz
      refine ned1_moments_core le_rfl hb (ufcVerts_affineIndependent 2) (tangPull_ned _ hw) (tangZero_pull le_rfl hs τ t1 t2 hlow hb) ?_
      intro p hp j
      have hp' : p ∈ Submodule.span ℝ (Set.range φ) := by
        rw [hspan, mem_restrictTotalDegree]; omega
      obtain ⟨c, rfl⟩ := (Submodule.mem_span_range_iff_exists_fun ℝ).1 hp'
      rw [Finset.mul_sum]
      refine integral_comb _ _ fun l _ => ?_
      have hlt : (j : ℕ) * n + l < 2 * n := by
        have := l.2
        fin_cases j <;> simp <;> omega
      have hv := hz _ ((hmem _).2 ⟨⟨j * n + l, by omega⟩, hlt, rfl⟩)
      rw [(hnode w hw _ j l rfl).2] at hv
      have e : ∀ y, eval y (tangPull (fun j => s.v (τ j)) w j * c l • φ l) = c l * eval y (tangPull (fun j => s.v (τ j)) w j * φ l) := by
        intro y
        rw [map_mul, map_mul, smul_eval]; ring
      simp only [e]
      rw [MeasureTheory.integral_const_mul, hv, mul_zero]
    · intro hz l hl
      obtain ⟨i, hi, rfl⟩ := (hmem l).1 hl
      obtain ⟨p, l, hpl⟩ := hidx i hi
      rw [(hnode w hw i p l hpl).2, hz]
      simp

/-- The face blocks of both variants. -/
theorem face_blocks_spec {s : SimplexCell (Fin 3 → ℝ)} (hs : ProperSimplex ℝ s) (hnum : NumberedSimplex s)
    {gj : ℕ → ℕ → List ℝ} (hgj : NodesOK gj) (k : ℕ) (hk : 1 ≤ k) (v : DualVariant) (hv : ∀ q, v = .integral q → k + 1 ≤ q) :
    ∃ F, faceBlocks gj s k v = some ((List.range 4).map F) ∧
      ∀ e < 4, TangBlock s (IsNed k) (2 * (k + 1).choose 2) 2 e (F e) := by
  have hnE : numEnts s 2 = some 4 := (hnum.1 2 (by omega)).1
  have hex : ∀ e < 4, ∃ t, HasEntity s.topo 2 e t := fun e he => ((hnum.1 2 (by omega)).2 e).2 he
  cases v with
  | point =>
    obtain ⟨F, h1, h2⟩ := mapM_choose 4 (fun i => facePointNodes s k i) (TangBlock s (IsNed k) (2 * (k + 1).choose 2) 2) (by
      intro e he
      obtain ⟨t, ht⟩ := hex e he
      exact face_points_block hs k hk ht) []
    refine ⟨F, ?_, fun e he => (h2 e he).2⟩
    simp only [faceBlocks, hnE, Option.bind_some, h1]
  | integral q =>
    have hq := hv q rfl
    obtain ⟨G, g1, g2, g3, g4, g5⟩ := ufc_cell_spec (d := 2) (by omega)
    obtain ⟨Q, q1, q2, q3, q4⟩ := simplex_rule_spec hgj (D := 2) (by omega) (ufcVerts ℝ 2) g5 q (by omega)
    obtain ⟨S, T, s1, s2, φ, s3, s4⟩ := vector_values (by omega) G g2 g3 (k - 1) 3 Q.pts
    rw [← g4] at q1
    obtain ⟨F, h1, h2⟩ := mapM_choose 4 (fun i => faceMonkNodes s Q T i) (TangBlock s (IsNed k) (2 * (k + 1).choose 2) 2) (by
      intro e he
      obtain ⟨t, ht⟩ := hex e he
      exact face_monk_block hs k hk ht Q q2 (by omega) q3 q4 (onVectorRows_length _ _) (by rw [show k - 1 + 2 = k + 1 by omega]) φ T s3 s4) []
    refine ⟨F, ?_, fun e he => (h2 e he).2⟩
    simp only [faceBlocks, g1, q1, s1, s2, hnE, Option.bind_eq_bind, Option.bind_some, h1]

end faces
end FIAT
