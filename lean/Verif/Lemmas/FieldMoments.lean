/-
Interior moments against the nodal basis of another element, and the full vector-valued polynomial space: the parts shared by the
BDM and second kind Nedelec elements (C23).
-/
import Verif.Model.SecondKind
import Verif.Lemmas.CurlFaces

namespace FIAT
open MvPolynomial
section
variable {D : ℕ}

/-- The full space: all components of degree at most `k`. -/
def FullDeg (k : ℕ) (w : Fin D → MvPolynomial (Fin D) ℝ) : Prop := ∀ j, (w j).totalDegree ≤ k

/-- `ONPolynomialSet(cell, k, (D,))` is a basis of the vector fields of degree at most `k`. -/
theorem vec_space_spec (hD : D = 2 ∨ D = 3) (s : SimplexCell (Fin D → ℝ)) (hs : ProperSimplex ℝ s)
    (ho : 0 < orientation fun i : Fin (D + 1) => s.v i) (k : ℕ) (hk : 1 ≤ k) :
    ∃ m S, onVectorSet s k = some ⟨m, S⟩ ∧ S.sd = D ∧ m = D * (k + D).choose D ∧
      ∃ φ : Fin ((k + D).choose D) → MvPolynomial (Fin D) ℝ,
        BaseSpec φ S.base ∧ DmatSpec φ S.dmats ∧ LinearIndependent ℝ (S.member φ) ∧
        ∀ w, w ∈ Submodule.span ℝ (Set.range (S.member φ)) ↔ FullDeg k w := by
  have hD' : D = 1 ∨ D = 2 ∨ D = 3 := Or.inr hD
  have hind : AffineIndependent ℝ fun i : Fin (D + 1) => s.v i := by
    have hnd := hs.2.2.1
    unfold Nondegenerate at hnd
    rwa [hs.1] at hnd
  obtain ⟨φ, f1, f2⟩ := orthoSeq_exists hD' _ hind (by rw [← orientation_edge]; exact ho.ne')
  obtain ⟨mats, m1, m2, m3⟩ := on_set_of_table hD' s hs (fun h => by omega) k φ (f1 k (Or.inr (by omega)))
    (fun n _ => ⟨f2.indep n, f2.span n⟩)
  have hlen : (onVectorRows ((k + D).choose D) D).length = D * ((k + D).choose D) := onVectorRows_length ((k + D).choose D) D
  let e : Fin D × Fin ((k + D).choose D) ≃ Fin (onVectorRows ((k + D).choose D) D).length := finProdFinEquiv.trans (finCongr hlen.symm)
  have hmem : ((PolySet.ofRows D (expTab s.verts k) mats (onVectorRows ((k + D).choose D) D)).member fun i : Fin ((k + D).choose D) => φ i) ∘ e =
      fun t : Fin D × Fin ((k + D).choose D) => unitField t.1 (φ t.2) := by
    funext t
    rw [Function.comp_apply, ofRows_member]
    have h1 : ((e t : Fin _) : ℕ) = t.1 * ((k + D).choose D) + t.2 := by
      change (t.2 : ℕ) + ((k + D).choose D) * t.1 = _
      ring
    have h2 := onVectorRows_get ((k + D).choose D) D t.1 t.2 t.1.2 t.2.2
    rw [← h1, List.getElem?_eq_getElem (e t).2, Option.some.injEq] at h2
    rw [List.get_eq_getElem, h2, rowField_unitRow φ _ _ t.1.2 t.2.2]
  have hr : Set.range ((PolySet.ofRows D (expTab s.verts k) mats (onVectorRows ((k + D).choose D) D)).member fun i : Fin ((k + D).choose D) => φ i) =
      Set.range fun t : Fin D × Fin ((k + D).choose D) => unitField t.1 (φ t.2) := by
    rw [← hmem, EquivLike.range_comp]
  refine ⟨_, PolySet.ofRows D (expTab s.verts k) mats (onVectorRows ((k + D).choose D) D), ?_, rfl, hlen, fun i => φ i, m2, m3, ?_, fun w => ?_⟩
  · unfold onVectorSet
    rw [m1]; rfl
  · rw [← linearIndependent_equiv e, hmem]
    exact f2.vec_indep k
  · rw [hr, f2.vec_span k, mem_vecP]; rfl

theorem sum_index_vec (d : ℕ) (f : List ℕ → ℝ) : ∑ α ∈ (indexIterator [d]).toFinset, f α = ∑ l : Fin d, f [(l : ℕ)] := by
  have h : indexIterator [d] = (List.range d).map fun l => [l] := by
    simp [indexIterator]
  rw [List.sum_toFinset _ (indexIterator_nodup [d]), h, List.map_map, list_sum_range, Finset.sum_range]
  rfl

/-- A Frobenius moment against a vector-valued function. -/
theorem frobenius_field (w : Fin D → MvPolynomial (Fin D) ℝ) {P : Type} (pts : List P) (wts : List ℝ)
    (hl : wts.length = pts.length) (F : P → Fin D → ℝ) (hnd : (pts.map F).Nodup) (u : ℕ → Fin D → ℝ) (U : P → Fin D → ℝ)
    (hu : ∀ (j : ℕ) x, pts[j]? = some x → ∀ l : Fin D, u j l = U x l) :
    PlainNode (frobeniusIntegralMoment [D] (((pts.map F).zip wts).zipIdx.map fun q =>
      (q.1.1, q.1.2, fun (α : List ℕ) => vecNat (u q.2) (α.getD 0 0)))) ∧
    (frobeniusIntegralMoment [D] (((pts.map F).zip wts).zipIdx.map fun q =>
      (q.1.1, q.1.2, fun (α : List ℕ) => vecNat (u q.2) (α.getD 0 0)))).onField (fieldOf w) =
      (⟨pts, wts⟩ : QRule ℝ P).integrate fun y => ∑ l, U y l * eval (F y) (w l) := by
  have hpt : (((((pts.map F).zip wts).zipIdx).map fun q =>
      (q.1.1, q.1.2, fun (α : List ℕ) => vecNat (u q.2) (α.getD 0 0))).map fun q => q.1).Nodup := by
    have : ((((pts.map F).zip wts).zipIdx).map fun q =>
        (q.1.1, q.1.2, fun (α : List ℕ) => vecNat (u q.2) (α.getD 0 0))).map (fun q => q.1) = pts.map F := by
      rw [List.map_map]
      have e : ((fun q : (Fin D → ℝ) × ℝ × (List ℕ → ℝ) => q.1) ∘ fun q : ((Fin D → ℝ) × ℝ) × ℕ =>
          (q.1.1, q.1.2, fun (α : List ℕ) => vecNat (u q.2) (α.getD 0 0))) = (fun q => q.1) ∘ fun q => q.1 := rfl
      rw [e, ← List.map_map, List.zipIdx_map_fst, List.map_fst_zip (by rw [List.length_map, hl])]
    rw [this]; exact hnd
  refine ⟨plain_of_pt _ (fill_wf _ _ _ hpt), ?_⟩
  unfold Functional.onField
  rw [frobenius_apply _ _ _ _ hpt, List.map_map]
  have e : ((pts.map F).zip wts).zipIdx = ((pts.zip wts).zipIdx).map fun q => ((F q.1.1, q.1.2), q.2) := by
    rw [List.zip_map_left, List.zipIdx_map]
    rfl
  rw [e, List.map_map]
  refine sum_zip_values pts wts hl (fun y => ∑ l, U y l * eval (F y) (w l))
    (fun y a j => a * ∑ α ∈ (indexIterator [D]).toFinset, vecNat (u j) (α.getD 0 0) * eval (F y) (fieldOf w α)) ?_
  intro j x a hx
  beta_reduce
  congr 1
  rw [sum_index_vec]
  refine Finset.sum_congr rfl fun l _ => ?_
  rw [fieldOf_apply, show ([(l : ℕ)] : List ℕ).getD 0 0 = l from rfl, vecNat, dif_pos l.2, hu j x hx]

/-- The values of a nodal element. -/
theorem nodal_values {N m : ℕ} {V : (Fin D → MvPolynomial (Fin D) ℝ) → Prop} {nodes : List (Functional ℝ (Fin D → ℝ))}
    {el : PolySet ℝ (Fin D → ℝ) N m (Fin D)} (hsd : el.sd = D) (h : IsNodalElement V nodes el) :
    ∃ ψ : Fin m → Fin D → MvPolynomial (Fin D) ℝ, (∀ i, V (ψ i)) ∧ (∀ w, V w → w ∈ Submodule.span ℝ (Set.range ψ)) ∧
      ∀ pts, ∃ T, el.values pts = some T ∧ ∀ i c (j : ℕ) x, pts[j]? = some x → T i c j = eval x (ψ i c) := by
  obtain ⟨ψ, h1, h2, -, h3⟩ := h
  refine ⟨ψ, h1, h2, fun pts => ?_⟩
  obtain ⟨res, r1, r2, r3⟩ := h3 pts 0
  have hk : List.replicate D 0 ∈ Dict.keys res := (r2 _).2 ⟨by simp, by simp⟩
  obtain ⟨T, hT⟩ := Option.isSome_iff_exists.1 (Dict.get?_isSome_iff.2 hk)
  refine ⟨T, ?_, fun i c j x hx => ?_⟩
  · unfold PolySet.values
    rw [r1, Option.bind_some, hsd, hT]
  · rw [r3 _ T hT i c j x hx, iterDeriv_zero]

/-- Vanishing moments against a spanning family. -/
theorem moments_span {v : Fin (D + 1) → Fin D → ℝ} {m : ℕ} (ψ : Fin m → Fin D → MvPolynomial (Fin D) ℝ)
    (w p : Fin D → MvPolynomial (Fin D) ℝ) (hp : p ∈ Submodule.span ℝ (Set.range ψ))
    (h : ∀ i, ∫ x in convexHull ℝ (Set.range v), eval x (∑ l, w l * ψ i l) = 0) :
    ∫ x in convexHull ℝ (Set.range v), eval x (∑ l, w l * p l) = 0 := by
  obtain ⟨c, rfl⟩ := (Submodule.mem_span_range_iff_exists_fun ℝ).1 hp
  have e : ∑ l, w l * (∑ i, c i • ψ i) l = ∑ i, C (c i) * ∑ l, w l * ψ i l := by
    simp only [Finset.sum_apply, Pi.smul_apply, smul_eq_C_mul, Finset.mul_sum]
    rw [Finset.sum_comm]
    refine Finset.sum_congr rfl fun i _ => Finset.sum_congr rfl fun l _ => by ring
  rw [e]
  refine integral_comb _ _ fun i _ => ?_
  simp only [map_mul, eval_C]
  rw [MeasureTheory.integral_const_mul, h, mul_zero]

/-- The interior moments against the nodal basis of another element. -/
theorem field_moments_spec (v : Fin (D + 1) → Fin D → ℝ) (Q : QRule ℝ (Fin D → ℝ)) {N : ℕ} (hQ : GoodRule Q v N)
    (hl : Q.wts.length = Q.pts.length) (hnd : Q.pts.Nodup) {m a : ℕ} (ψ : Fin m → Fin D → MvPolynomial (Fin D) ℝ)
    (hψ : ∀ i c, (ψ i c).totalDegree ≤ a)
    (T : Fin m → Fin D → ℕ → ℝ) (hT : ∀ i c (j : ℕ) x, Q.pts[j]? = some x → T i c j = eval x (ψ i c)) :
    (fieldMoments Q T).length = m ∧ (∀ l ∈ fieldMoments Q T, PlainNode l) ∧
      ∀ w : Fin D → MvPolynomial (Fin D) ℝ, (∀ j, (w j).totalDegree + a ≤ N) → (∀ l ∈ fieldMoments Q T, l.onField (fieldOf w) = 0) →
        ∀ i, ∫ x in convexHull ℝ (Set.range v), eval x (∑ l, w l * ψ i l) = 0 := by
  have hf : ∀ i (w : Fin D → MvPolynomial (Fin D) ℝ), _ := fun i w => frobenius_field w Q.pts Q.wts hl id (by rw [List.map_id]; exact hnd)
    (fun j c => T i c j) (fun x c => eval x (ψ i c)) (fun j x hx c => hT i c j x hx)
  simp only [List.map_id] at hf
  refine ⟨by simp [fieldMoments], fun l hl' => ?_, fun w hw h0 i => ?_⟩
  · obtain ⟨i, -, rfl⟩ := List.mem_map.1 hl'
    exact (hf i 0).1
  · have h1 := h0 _ (List.mem_map.2 ⟨i, List.mem_finRange i, rfl⟩)
    rw [(hf i w).2] at h1
    rw [← h1]
    have hdeg : (∑ l, w l * ψ i l).totalDegree ≤ N := by
      refine sum_degree _ _ _ fun l _ => (totalDegree_mul _ _).trans ?_
      have := hw l
      have := hψ i l
      omega
    refine Eq.trans (hQ.1 _ hdeg).symm ?_
    congr 1
    funext x
    rw [map_sum]
    exact Finset.sum_congr rfl fun l _ => by rw [map_mul, mul_comm]; rfl

end
end FIAT
