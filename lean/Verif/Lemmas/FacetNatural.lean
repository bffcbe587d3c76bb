/-
C68: the facet nodes of H(div) elements depend only on the normal trace, pulled back to the reference facet, and in the same way
for every cell.
-/
import Verif.Props.MeshSpec
import Verif.Props.BDMElement

namespace FIAT
open MvPolynomial
section
variable {D : ℕ}

/-- The normal trace pulled back to the reference facet. -/
noncomputable def normPull {d : ℕ} (vc : Fin (d + 1) → Fin D → ℝ) (n : Fin D → ℝ) (w : Fin D → MvPolynomial (Fin D) ℝ) :
    MvPolynomial (Fin d) ℝ := ∑ j, C (n j) * pullback (vc 0) (fun i => vc i.succ) (w j)

theorem eval_normPull {d : ℕ} (vc : Fin (d + 1) → Fin D → ℝ) (n : Fin D → ℝ) (w : Fin D → MvPolynomial (Fin D) ℝ) (y : Fin d → ℝ) :
    eval y (normPull vc n w) = ∑ j, n j * eval (entMap vc y) (w j) := by
  unfold normPull
  rw [map_sum]
  exact Finset.sum_congr rfl fun j _ => by rw [map_mul, eval_C, eval_pull]

/-- What the dofs of an entity are as functions of the trace `q` there: homogeneous, and injective for degree `k`. -/
structure TraceForm {d : ℕ} (k : ℕ) (Φ : MvPolynomial (Fin d) ℝ → List ℝ) : Prop where
  hom : ∀ σ q, Φ (C σ * q) = (Φ q).map (σ * ·)
  inj : ∀ q q', q.totalDegree ≤ k → q'.totalDegree ≤ k → Φ q = Φ q' → q = q'

theorem map_inj_mem {α β : Type} {f f' : α → β} {l : List α} (h : l.map f = l.map f') : ∀ a ∈ l, f a = f' a :=
  List.map_inj_left.1 h

theorem lattice_form {d : ℕ} (hd : 1 ≤ d) (k : ℕ) :
    TraceForm k fun q : MvPolynomial (Fin d) ℝ => (refLattice d (k + d + 1)).map fun y => eval y q where
  hom σ q := by
    simp only [List.map_map, map_mul, eval_C, Function.comp_def]
  inj q q' hq hq' h := by
    have := map_inj_mem h
    have hz := (refLattice_spec hd k).2.1 (q - q') ((totalDegree_sub _ _).trans (max_le hq hq')) fun y hy => by
      rw [map_sub, this y hy, sub_self]
    exact sub_eq_zero.1 hz

theorem sum_sub_lists {α : Type} (l : List α) (f f1 f2 : α → ℝ) (h : ∀ a, f a = f1 a - f2 a) :
    (l.map f).sum = (l.map f1).sum - (l.map f2).sum := by
  induction l with
  | nil => simp
  | cons a l ih => rw [List.map_cons, List.map_cons, List.map_cons, List.sum_cons, List.sum_cons, List.sum_cons, ih, h]; ring

theorem moment_form {d m k N : ℕ} (Q : QRule ℝ (Fin d → ℝ)) (hQ : GoodRule Q (ufcVerts ℝ d) N) (hN : 2 * k ≤ N)
    (hl : Q.wts.length = Q.pts.length) (φ : Fin m → MvPolynomial (Fin d) ℝ) (T : Fin m → Unit → ℕ → ℝ)
    (hspan : Submodule.span ℝ (Set.range φ) = restrictTotalDegree (Fin d) ℝ k)
    (hT : ∀ i (j : ℕ) x, Q.pts[j]? = some x → T i () j = eval x (φ i)) :
    TraceForm k fun q : MvPolynomial (Fin d) ℝ =>
      (List.finRange m).map fun i => quadSum (zipRule Q.pts Q.wts (T i ())) fun y => eval y q where
  hom σ q := by
    rw [List.map_map]
    refine List.map_congr_left fun i _ => ?_
    simp only [Function.comp, quadSum, map_mul, eval_C]
    rw [← List.sum_map_mul_left]
    congr 1
    exact List.map_congr_left fun a _ => by ring
  inj q q' hq hq' h := by
    have h1 := map_inj_mem h
    have hφ : ∀ i, (φ i).totalDegree ≤ k := by
      intro i
      rw [← mem_restrictTotalDegree, ← hspan]
      exact Submodule.subset_span ⟨i, rfl⟩
    refine sub_eq_zero.1 (moments_zero (ufcVerts ℝ d) (ufcVerts_affineIndependent d) φ hspan (q - q')
      ((totalDegree_sub _ _).trans (max_le hq hq')) fun i => ?_)
    have hd : (φ i * (q - q')).totalDegree ≤ N := by
      refine (totalDegree_mul _ _).trans ?_
      have := hφ i
      have := (totalDegree_sub q q').trans (max_le hq hq')
      omega
    rw [← hQ.1 _ hd]
    have h2 := h1 i (List.mem_finRange i)
    rw [quadSum_zip Q.pts Q.wts hl _ (fun x => eval x (φ i)) _ (hT i),
      quadSum_zip Q.pts Q.wts hl _ (fun x => eval x (φ i)) _ (hT i)] at h2
    rw [← sub_eq_zero] at h2
    rw [← h2]
    unfold QRule.integrate
    exact sum_sub_lists _ _ _ _ fun a => by simp only [map_mul, map_sub]; ring

/-- The values of the facet nodes of the point variants. -/
theorem facet_point_values (hD : 2 ≤ D) {s : SimplexCell (Fin D → ℝ)} (hs : ProperSimplex ℝ s) {nrm : ℕ → Option (Fin D → ℝ)} (k : ℕ)
    {e : ℕ} {τ : Fin (D - 1 + 1) → ℕ} (h : HasEntity s.topo (D - 1) e (List.ofFn τ)) {n : Fin D → ℝ} (hn : nrm e = some n)
    {blk : List (Functional ℝ (Fin D → ℝ))} (hb : facetPointNodes s nrm k e = some blk) (w : Fin D → MvPolynomial (Fin D) ℝ) :
    blk.map (fun a => a.onField (fieldOf w)) =
      (refLattice (D - 1) (k + (D - 1) + 1)).map fun y => eval y (normPull (fun j => s.v (τ j)) n w) := by
  obtain ⟨τ', t1, t2, t3, t4⟩ := entity_tuple hs h
  obtain rfl := ofFn_inj' t3
  unfold facetPointNodes at hb
  rw [show D + k = k + (D - 1) + 1 by omega, make_points_ref hs (by omega) (by omega) τ t4, Option.bind_some, hn, Option.map_some,
    Option.some.injEq] at hb
  subst hb
  rw [List.map_map, List.map_map]
  refine List.map_congr_left fun y _ => ?_
  simp only [Function.comp]
  rw [point_direction_field, eval_normPull]

/-- The values of the facet nodes of the integral variants. -/
theorem facet_moment_values {s : SimplexCell (Fin D → ℝ)} (hs : ProperSimplex ℝ s) {nrm : ℕ → Option (Fin D → ℝ)}
    (Q : QRule ℝ (Fin (D - 1) → ℝ)) (hl : Q.wts.length = Q.pts.length) (hnd : Q.pts.Nodup) {m : ℕ} (T : Fin m → Unit → ℕ → ℝ)
    {e : ℕ} {τ : Fin (D - 1 + 1) → ℕ} (h : HasEntity s.topo (D - 1) e (List.ofFn τ)) {n : Fin D → ℝ} (hn : nrm e = some n)
    {blk : List (Functional ℝ (Fin D → ℝ))} (hb : facetMomentNodes s nrm Q T e = some blk) (w : Fin D → MvPolynomial (Fin D) ℝ) :
    blk.map (fun a => a.onField (fieldOf w)) = (List.finRange m).map fun i =>
      quadSum (zipRule Q.pts Q.wts (T i ())) fun y => eval y (normPull (fun j => s.v (τ j)) n w) := by
  obtain ⟨τ', t1, t2, t3, t4⟩ := entity_tuple hs h
  obtain rfl := ofFn_inj' t3
  unfold facetMomentNodes at hb
  rw [mapToEntity_ref τ t4, Option.bind_some, hn, Option.map_some, Option.some.injEq] at hb
  subst hb
  rw [List.map_map]
  refine List.map_congr_left fun i _ => ?_
  simp only [Function.comp]
  rw [moment_direction_field _ _ _ (by
    rw [zipRule_points _ _ (by rw [List.length_map, hl])]
    exact hnd.map (entMap_injective hs τ t1 t2)), quadSum_zip_map]
  simp only [eval_normPull]

theorem partition_unique {ids : EntityIds ℕ} {n n' : ℕ} (h : DofsPartition ids n) (h' : DofsPartition ids n') : n = n' := by
  have key : ∀ {n n' : ℕ}, DofsPartition ids n → DofsPartition ids n' → n' ≤ n := by
    intro n n' h h'
    by_contra hc
    obtain ⟨p, ⟨l, l1, l2⟩, -⟩ := h'.2 n (by omega)
    exact lt_irrefl _ ((h.1 _ _ _ l1).2 _ l2)
  exact le_antisymm (key h' h) (key h h')

/-- The facet dofs of an element with `facetIds` index the blocks of its facets. -/
theorem facet_ids_blocks (hD : 2 ≤ D) {s : SimplexCell (Fin D → ℝ)} (hnum : NumberedSimplex s) {degree : ℕ} {internal : Option ℕ}
    {ids : EntityIds ℕ} (hids : facetIds s degree internal = some ids) {pts : List (Fin D → ℝ)}
    (hpts : makePoints ℝ s (D - 1) 0 (D + degree) = some pts) (F : ℕ → List (Functional ℝ (Fin D → ℝ)))
    (hF : ∀ e < D + 1, (F e).length = pts.length) (I : List (Functional ℝ (Fin D → ℝ)))
    (hp : DofsPartition ids (((List.range (D + 1)).map F).flatten ++ I).length) {e : ℕ} (he : e < D + 1) :
    ∃ l, ids.at? (D - 1) e = some l ∧ l.map (fun i => (((List.range (D + 1)).map F).flatten ++ I)[i]?) = (F e).map some := by
  have step : ∀ J : List (Functional ℝ (Fin D → ℝ)), J.length = internal.getD 0 →
      EntityBlocks s.topo (entsOf D (D - 1) ++ entsOf D D) (fun x => if x.1 = D then J else F x.2)
        (((List.range (D + 1)).map F).flatten ++ J) ids := by
    intro J hJ
    obtain ⟨ids', h1, h2⟩ := facetIds_spec hD hnum degree internal hpts (fun x => if x.1 = D then J else F x.2)
      (fun e he => by rw [if_neg (by dsimp only; omega), hF e he]) (by rw [if_pos rfl, hJ])
    rw [hids, Option.some.injEq] at h1
    subst h1
    rwa [flatMap_blocks hD] at h2
  have hI : I.length = internal.getD 0 := by
    have h1 := (step (List.replicate (internal.getD 0) (pointDirectionEvaluation D (fun _ => 0) 0)) (by simp)).layout.1
    have := partition_unique hp h1
    rw [List.length_append, List.length_append, List.length_replicate] at this
    omega
  obtain ⟨l, l1, l2⟩ := (step I hI).layout.2.2 (D - 1) e (List.mem_append_left _ (mem_entsOf.2 ⟨rfl, by
    rw [Nat.sub_add_cancel (by omega)]; simpa using he⟩))
  refine ⟨l, l1, ?_⟩
  rwa [if_neg (by dsimp only; omega)] at l2

end
end FIAT
