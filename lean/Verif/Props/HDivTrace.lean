/-
C35: the facet geometry, the dof numbering and the tabulation of the trace element.
-/
import Verif.Model.HDivTrace
import Verif.Lemmas.Blocks
import Verif.Props.Affine
import Verif.Props.Combinat
import Verif.Props.Discontinuous
import Verif.Lemmas.Combine
import Mathlib.LinearAlgebra.Matrix.ToLinearEquiv
import Mathlib.LinearAlgebra.AffineSpace.Independent
import Mathlib.Algebra.BigOperators.Fin
import Mathlib.Data.List.FinRange
import Mathlib.Data.List.GetD

namespace FIAT

section geometry
variable {K : Type} [Field K] {n : ℕ}

/-- Specification: `c` are barycentric coordinates of `x` with respect to the vertices `v`. -/
def HasBary {m cd : ℕ} (v : Fin m → Fin cd → K) (c : Fin m → K) (x : Fin cd → K) : Prop :=
  ∑ i, c i = 1 ∧ ∀ l, x l = ∑ i, c i * v i l

private theorem hasBary_unique {v : Fin (n + 1) → Fin n → K} (hv : AffineIndependent K v) {c c' : Fin (n + 1) → K}
    {x : Fin n → K} (h : HasBary v c x) (h' : HasBary v c' x) : c = c' := by
  rw [affineIndependent_iff] at hv
  have := hv Finset.univ (fun i => c i - c' i)
    (by rw [Finset.sum_sub_distrib, h.1, h'.1, sub_self])
    (by
      funext l
      rw [Finset.sum_apply]
      simp only [Pi.smul_apply, smul_eq_mul, sub_mul, Finset.sum_sub_distrib, Pi.zero_apply]
      rw [← h.2 l, ← h'.2 l, sub_self])
  funext i
  exact sub_eq_zero.1 (this i (Finset.mem_univ i))

private theorem bary_det {v : Fin (n + 1) → Fin n → K} (hv : AffineIndependent K v) :
    IsUnit (baryMatrix v).det := by
  rw [isUnit_iff_ne_zero]
  intro h0
  obtain ⟨w, hw, h⟩ := Matrix.exists_mulVec_eq_zero_iff.2 h0
  apply hw
  rw [affineIndependent_iff] at hv
  have := hv Finset.univ (Fin.snoc (α := fun _ => K) w (-∑ i, w i))
    (by rw [Fin.sum_univ_castSucc]; simp)
    (by
      funext l
      rw [Finset.sum_apply, Fin.sum_univ_castSucc]
      have hl := congrFun h l
      simp only [Matrix.mulVec, dotProduct, baryMatrix, Matrix.of_apply, Pi.zero_apply, sub_mul,
        Finset.sum_sub_distrib] at hl
      simp only [Pi.smul_apply, smul_eq_mul, Fin.snoc_castSucc, Fin.snoc_last, Pi.zero_apply]
      rw [← hl, neg_mul, Finset.sum_mul, sub_eq_add_neg]
      exact congrArg₂ (· + ·) (Finset.sum_congr rfl fun i _ => mul_comm _ _)
        (congrArg Neg.neg (Finset.sum_congr rfl fun i _ => mul_comm _ _)))
  funext i
  have h2 := this i.castSucc (Finset.mem_univ _)
  simpa using h2

/-- C35: on a non-degenerate simplex `barycentric_coordinates` returns, for each point, its unique barycentric
coordinates: they sum to one and reproduce the point. -/
theorem barycentric_coordinates_spec {v : Fin (n + 1) → Fin n → K} (hv : AffineIndependent K v)
    (points : List (Fin n → K)) :
    ∃ cs, barycentricCoordinates points v = some cs ∧
      List.Forall₂ (fun x c => ∀ c', HasBary v c' x ↔ c' = c) points cs := by
  refine ⟨_, by rw [barycentricCoordinates, if_pos (bary_det hv)], ?_⟩
  rw [List.forall₂_map_right_iff, List.forall₂_same]
  intro x _ c'
  set invT := (baryMatrix v)⁻¹ with hinv
  set b : Fin n → K := fun i => ∑ j, invT i j * (x j - v (Fin.last n) j) with hb
  have hsol : ∀ l, ∑ i, (v i.castSucc l - v (Fin.last n) l) * b i = x l - v (Fin.last n) l := by
    intro l
    have h1 : (baryMatrix v).mulVec b = fun l => x l - v (Fin.last n) l := by
      have : b = invT.mulVec (fun j => x j - v (Fin.last n) j) := rfl
      rw [this, Matrix.mulVec_mulVec, hinv, Matrix.mul_nonsing_inv _ (bary_det hv), Matrix.one_mulVec]
    exact congrFun h1 l
  have hc : HasBary v (Fin.snoc (α := fun _ => K) b (1 - ∑ i, b i)) x := by
    refine ⟨by rw [Fin.sum_univ_castSucc]; simp, fun l => ?_⟩
    rw [Fin.sum_univ_castSucc]
    simp only [Fin.snoc_castSucc, Fin.snoc_last]
    have h := hsol l
    simp only [sub_mul, Finset.sum_sub_distrib] at h
    rw [← Finset.mul_sum] at h
    have e : ∑ i, b i * v i.castSucc l = ∑ i, v i.castSucc l * b i :=
      Finset.sum_congr rfl fun i _ => mul_comm _ _
    rw [e]
    linear_combination -h
  exact ⟨fun h => hasBary_unique hv h hc, fun h => h ▸ hc⟩

/-- C35 (converse): on a degenerate simplex `barycentric_coordinates` raises; the vertices must be affinely
independent. -/
theorem barycentric_coordinates_degenerate {v : Fin (n + 1) → Fin n → K} (hv : ¬ AffineIndependent K v)
    (points : List (Fin n → K)) : barycentricCoordinates points v = none := by
  rw [barycentricCoordinates, if_neg]
  intro h
  apply hv
  rw [affineIndependent_iff_linearIndependent_vsub K _ (Fin.last n), Fintype.linearIndependent_iff]
  intro g hg i
  have h2 : (baryMatrix v).mulVec (fun j => g ⟨j.castSucc, (Fin.castSucc_lt_last j).ne⟩) = 0 := by
    funext l
    have hl := congrFun hg l
    rw [Finset.sum_apply] at hl
    simp only [Matrix.mulVec, dotProduct, baryMatrix, Matrix.of_apply, Pi.zero_apply]
    refine Eq.trans ?_ hl
    refine Fintype.sum_bijective (fun j : Fin n => (⟨j.castSucc, (Fin.castSucc_lt_last j).ne⟩ :
      {x : Fin (n + 1) // x ≠ Fin.last n})) ?_ _ _ ?_
    · refine ⟨fun a b hab => by simpa using hab, ?_⟩
      rintro ⟨k, hk⟩
      obtain ⟨j, rfl⟩ := Fin.exists_castSucc_eq.2 hk
      exact ⟨j, rfl⟩
    · intro j
      simp [mul_comm]
  have h3 : (fun j => g ⟨j.castSucc, (Fin.castSucc_lt_last j).ne⟩) = 0 := by
    by_contra hne
    exact h.ne_zero (Matrix.exists_mulVec_eq_zero_iff.1 ⟨_, hne, h2⟩)
  obtain ⟨i, hi⟩ := i
  obtain ⟨j, rfl⟩ := Fin.exists_castSucc_eq.2 hi
  exact congrFun h3 j

theorem filter_ne_finRange (m : ℕ) (i : Fin (m + 1)) :
    ((List.finRange (m + 1)).filter fun j => decide (j ≠ i)) = (List.finRange m).map i.succAbove := by
  refine List.Perm.eq_of_pairwise (le := (· < ·)) ?_ ?_ ?_ ?_
  · intro a b _ _ h1 h2; exact absurd (h1.trans h2) (lt_irrefl _)
  · exact (List.pairwise_lt_finRange _).filter _
  · rw [List.pairwise_map]
    exact (List.pairwise_lt_finRange _).imp fun h => Fin.succAbove_lt_succAbove_iff.2 h
  · rw [List.perm_ext_iff_of_nodup ((List.nodup_finRange _).filter _)
      ((List.nodup_finRange _).map Fin.succAbove_right_injective)]
    intro a
    simp only [List.mem_filter, List.mem_finRange, true_and, decide_eq_true_eq, List.mem_map]
    rw [← Fin.exists_succAbove_eq_iff]

/-- C35: `map_to_reference_facet` inverts the transform of facet `i` (the facet opposite vertex `i`, its vertices
in increasing order), for every list of facet points. -/
theorem map_to_reference_facet_spec {v : Fin (n + 2) → Fin (n + 1) → K} (hv : AffineIndependent K v)
    (i : Fin (n + 2)) (ys : List (Fin n → K)) :
    mapToReferenceFacet (ys.map (entityTransform (ufcVerts K n) fun j => v (i.succAbove j))) v i = some ys := by
  obtain ⟨cs, h1, h2⟩ := barycentric_coordinates_spec hv
    (ys.map (entityTransform (ufcVerts K n) fun j => v (i.succAbove j)))
  rw [mapToReferenceFacet, h1]
  simp only [Option.bind_eq_bind, Option.bind_some, Option.some.injEq]
  rw [List.forall₂_map_left_iff] at h2
  have : List.Forall₂ (fun y (c : Fin (n + 2) → K) =>
      (fun l => ∑ j : Fin (n + 1), ufcVerts K n j l *
        ((((List.finRange (n + 2)).filter fun j => decide (j ≠ i)).map c).getD (j : ℕ) 0)) = y) ys cs := by
    refine h2.imp fun y c hc => ?_
    -- barycentric coordinates of `y` in the reference facet
    set b : Fin (n + 1) → K := Fin.cons (1 - ∑ j, y j) y with hb
    have hb1 : ∑ j, b j = 1 := by rw [hb, Fin.sum_univ_succ]; simp
    have hb2 : y = fun l => ∑ j, b j * ufcVerts K n j l := by
      funext l
      rw [Fin.sum_univ_succ]
      simp [hb, ufcVerts]
    have hin : HasBary v (i.insertNth (α := fun _ => K) 0 b)
        (entityTransform (ufcVerts K n) (fun j => v (i.succAbove j)) y) := by
      constructor
      · rw [Fin.sum_univ_succAbove _ i]
        simp [hb1]
      · intro l
        rw [Fin.sum_univ_succAbove _ i]
        have := congrFun (entity_transform_bary (fun j => v (i.succAbove j)) b hb1) l
        rw [← hb2] at this
        simpa using this
    have hce := (hc _).1 hin
    rw [filter_ne_finRange, ← hce]
    funext l
    have e : ∀ j : Fin (n + 1), (((List.finRange (n + 1)).map i.succAbove).map
        (i.insertNth (α := fun _ => K) 0 b)).getD (j : ℕ) 0 = b j := by
      intro j
      rw [List.getD_eq_getElem?_getD, List.map_map, List.getElem?_map,
        List.getElem?_eq_getElem (by simp only [List.length_finRange]; exact j.2)]
      simp
    simp only [e]
    conv_rhs => rw [hb2]
    exact Finset.sum_congr rfl fun j _ => mul_comm _ _
  clear h2 h1
  induction this with
  | nil => rfl
  | cons h _ ih => rw [List.map_cons, ih, h]

/-- C35: `map_from_reference_facet` is the transform of the reference simplex to the given vertices. -/
theorem map_from_reference_facet_spec {cd : ℕ} (y : Fin n → K) (v : Fin (n + 1) → Fin cd → K) :
    mapFromReferenceFacet y v = some (entityTransform (ufcVerts K n) v y) := by
  obtain ⟨cs, h1, h2⟩ := barycentric_coordinates_spec (ufcVerts_affineIndependent (K := K) n) [y]
  obtain ⟨c, rfl, hc⟩ : ∃ c, cs = [c] ∧ HasBary (ufcVerts K n) c y := by
    cases h2 with
    | cons hc ht => cases ht; exact ⟨_, rfl, (hc _).2 rfl⟩
  rw [mapFromReferenceFacet, h1]
  simp only [Option.bind_eq_bind, Option.bind_some, List.head?_cons, Option.some.injEq]
  have := entity_transform_bary v c hc.1
  rw [← (funext hc.2 : y = _)] at this
  rw [this]
  funext l
  exact Finset.sum_congr rfl fun j _ => mul_comm _ _

end geometry

section facet
variable {K : Type} [Field K] [LinearOrder K] {m : ℕ}

/-- Specification: `i` is the only facet on which all points lie (up to the tolerance). -/
def OnlyFacet (tol : K) (cs : List (Fin m → K)) (i : Fin m) : Prop :=
  ∀ j, (∀ c ∈ cs, |c j| < tol) ↔ j = i

private theorem unique_loop (fs : List (List (Fin m))) (u : List (Fin m)) :
    fs.foldl (fun (u : List (Fin m)) f => u.filter fun i => decide (i ∈ f)) u =
      u.filter fun i => fs.all fun f => decide (i ∈ f) := by
  induction fs generalizing u with
  | nil => simp
  | cons f fs ih =>
    rw [List.foldl_cons, ih, List.filter_filter]
    congr 1
    funext i
    rw [List.all_cons, Bool.and_comm]

private theorem mem_onFacets (tol : K) (c : Fin m → K) (i : Fin m) : i ∈ onFacets tol c ↔ |c i| < tol := by
  simp [onFacets]

private theorem unique_list (tol : K) (c0 : Fin m → K) (cs : List (Fin m → K)) :
    ((c0 :: cs).map (onFacets tol)).foldl (fun (u : List (Fin m)) f => u.filter fun i => decide (i ∈ f))
      (onFacets tol c0) = (List.finRange m).filter fun i => decide (∀ c ∈ c0 :: cs, |c i| < tol) := by
  rw [unique_loop, onFacets, List.filter_filter]
  congr 1
  funext i
  rw [Bool.eq_iff_iff]
  simp only [Bool.and_eq_true, List.all_eq_true, decide_eq_true_eq, List.mem_map, mem_onFacets]
  constructor
  · rintro ⟨h1, _⟩ c hc
    exact (mem_onFacets tol c i).1 (h1 _ ⟨c, hc, rfl⟩)
  · intro h
    refine ⟨?_, h c0 (by simp)⟩
    rintro f ⟨c, hc, rfl⟩
    exact (mem_onFacets tol c i).2 (h c hc)

/-- C35: `extract_unique_facet` reports facet `i` exactly if there is a point and `i` is the only coordinate that is
below the tolerance at all points. -/
theorem extract_unique_facet_spec (tol : K) (cs : List (Fin m → K)) (i : Fin m) :
    extractUniqueFacet tol cs = some (some i) ↔ cs ≠ [] ∧ OnlyFacet tol cs i := by
  cases cs with
  | nil => simp [extractUniqueFacet]
  | cons c0 cs =>
    have hu := unique_list tol c0 cs
    have hd : extractUniqueFacet tol (c0 :: cs) =
      match (List.finRange m).filter fun i => decide (∀ c ∈ c0 :: cs, |c i| < tol) with
      | [i] => some (some i)
      | _ => some none := by rw [← hu]; rfl
    rw [hd]
    have hmem : ∀ j, j ∈ (List.finRange m).filter (fun i => decide (∀ c ∈ c0 :: cs, |c i| < tol)) ↔
        ∀ c ∈ c0 :: cs, |c j| < tol := by intro j; simp
    have hnd := (List.nodup_finRange m).filter (fun i => decide (∀ c ∈ c0 :: cs, |c i| < tol))
    revert hmem hnd
    generalize (List.finRange m).filter (fun i => decide (∀ c ∈ c0 :: cs, |c i| < tol)) = U
    intro hmem hnd
    have key : U = [i] ↔ OnlyFacet tol (c0 :: cs) i := by
      constructor
      · rintro rfl j
        rw [← hmem j, List.mem_singleton]
      · intro h
        have : ∀ j, j ∈ U ↔ j ∈ [i] := fun j => by rw [hmem j, h j, List.mem_singleton]
        exact List.perm_singleton.1 ((List.perm_ext_iff_of_nodup hnd (List.nodup_singleton i)).2 this)
    constructor
    · intro h
      refine ⟨List.cons_ne_nil _ _, key.1 ?_⟩
      split at h
      · rw [Option.some.injEq, Option.some.injEq] at h; rw [h]
      · exact absurd h (by simp)
    · rintro ⟨_, h⟩
      rw [key.2 h]

/-- C35: no points is an error, and otherwise the search fails exactly if there is no such facet. -/
theorem extract_unique_facet_fail (tol : K) (cs : List (Fin m → K)) :
    (extractUniqueFacet tol cs = none ↔ cs = []) ∧
    (extractUniqueFacet tol cs = some none ↔ cs ≠ [] ∧ ¬ ∃ i, OnlyFacet tol cs i) := by
  have h1 : extractUniqueFacet tol cs = none ↔ cs = [] := by
    cases cs with
    | nil => simp [extractUniqueFacet]
    | cons c0 cs =>
      simp only [reduceCtorEq, iff_false]
      intro h
      simp only [extractUniqueFacet, List.map_cons] at h
      split at h <;> exact absurd h (by simp)
  refine ⟨h1, ?_⟩
  have h2 := extract_unique_facet_spec tol cs
  constructor
  · intro h
    have hne : cs ≠ [] := fun h' => by rw [h1.2 h'] at h; exact absurd h (by simp)
    refine ⟨hne, ?_⟩
    rintro ⟨i, hi⟩
    rw [(h2 i).2 ⟨hne, hi⟩] at h
    exact absurd h (by simp)
  · rintro ⟨hne, hno⟩
    rcases h : extractUniqueFacet tol cs with _ | _ | i
    · exact absurd (h1.1 h) hne
    · rfl
    · exact absurd ⟨i, ((h2 i).1 h).2⟩ hno

end facet

section element
variable {δ : Type} [LinearOrder δ] {P Q K : Type}

/-- Specification: on every facet dimension the entities are numbered `0, 1, 2, ...`. -/
def FacetsNumbered (topo : Topology δ) (subDim : δ → ℕ) (facetSd : ℕ) : Prop :=
  ∀ d es, Dict.get? topo d = some es → subDim d = facetSd → ∀ e, e ∈ Dict.keys es ↔ e < es.length

private theorem mapM_keys (mk : δ → Option (FacetElement P K)) (l : List (δ × Dict ℕ (List ℕ)))
    (dg : Dict δ (FacetElement P K)) (h : (l.mapM fun p => (mk p.1).map fun E => (p.1, E)) = some dg) :
    Dict.keys dg = Dict.keys l ∧ ∀ p ∈ dg, mk p.1 = some p.2 := by
  induction l generalizing dg with
  | nil =>
    have h' : (some [] : Option (Dict δ (FacetElement P K))) = some dg := h
    cases h'; exact ⟨rfl, by simp⟩
  | cons a l ih =>
    rw [List.mapM_cons] at h
    simp only [Option.bind_eq_bind, Option.bind_eq_some_iff, Option.map_eq_some_iff] at h
    obtain ⟨b, ⟨E, hE, rfl⟩, bs, hbs, h3⟩ := h
    obtain ⟨h1, h2⟩ := ih bs hbs
    have h3' : (a.1, E) :: bs = dg := Option.some.inj h3
    subst h3'
    refine ⟨by simp only [Dict.keys, List.map_cons] at h1 ⊢; rw [h1], ?_⟩
    intro p hp
    rcases List.mem_cons.1 hp with rfl | hp
    · exact hE
    · exact h2 p hp

private theorem traceDG_get {topo : Topology δ} (ht : topo.WF) {subDim : δ → ℕ} {fsd : ℕ}
    {mk : δ → Option (FacetElement P K)} {dg : Dict δ (FacetElement P K)}
    (h : traceDG topo subDim fsd mk = some dg) :
    Dict.WF dg ∧ (∀ d E, Dict.get? dg d = some E → d ∈ Dict.keys topo ∧ subDim d = fsd ∧ mk d = some E) ∧
      ∀ d ∈ Dict.keys topo, subDim d = fsd → ∃ E, Dict.get? dg d = some E := by
  obtain ⟨h1, h2⟩ := mapM_keys mk _ dg h
  have hk : ∀ d, d ∈ Dict.keys dg ↔ d ∈ Dict.keys topo ∧ subDim d = fsd := by
    intro d
    rw [h1]
    simp only [Dict.keys, List.mem_map, List.mem_filter, decide_eq_true_eq]
    constructor
    · rintro ⟨p, ⟨hp, hs⟩, rfl⟩; exact ⟨⟨p, hp, rfl⟩, hs⟩
    · rintro ⟨⟨p, hp, rfl⟩, hs⟩; exact ⟨p, ⟨hp, hs⟩, rfl⟩
  refine ⟨?_, ?_, ?_⟩
  · rw [Dict.WF, h1]
    exact ((List.filter_sublist).map Prod.fst).nodup ht.1
  · intro d E hE
    have hm := Dict.mem_of_get? hE
    obtain ⟨h3, h4⟩ := (hk d).1 (List.mem_map.2 ⟨_, hm, rfl⟩)
    exact ⟨h3, h4, h2 _ hm⟩
  · intro d hd hs
    exact Option.isSome_iff_exists.1 (Dict.get?_isSome_iff.2 ((hk d).2 ⟨hd, hs⟩))

/-- The facets in the order of the loops. -/
private def traceOrder (topo : Topology δ) (dg : Dict δ (FacetElement P K)) : List (δ × ℕ) :=
  (sortedItems dg).flatMap fun p => (List.range (numFacets topo p.1)).map fun i => (p.1, i)

private def dgDim (dg : Dict δ (FacetElement P K)) (x : δ × ℕ) : ℕ :=
  ((Dict.get? dg x.1).map FacetElement.dim).getD 0

private def dgPoints (dg : Dict δ (FacetElement P K)) (transform : δ → ℕ → P → Q) (x : δ × ℕ) : List Q :=
  ((Dict.get? dg x.1).map fun E => E.points.map fun y => transform x.1 x.2 y).getD []

private theorem dgPoints_length (dg : Dict δ (FacetElement P K)) (transform : δ → ℕ → P → Q) :
    (fun x => (dgPoints dg transform x).length) = dgDim dg := by
  funext x
  unfold dgPoints dgDim
  cases Dict.get? dg x.1 <;> simp [FacetElement.dim]

private theorem mem_traceOrder (topo : Topology δ) {dg : Dict δ (FacetElement P K)} (hdg : Dict.WF dg)
    (x : δ × ℕ) : x ∈ traceOrder topo dg ↔ (∃ E, Dict.get? dg x.1 = some E) ∧ x.2 < numFacets topo x.1 := by
  simp only [traceOrder, List.mem_flatMap, List.mem_map, List.mem_range, mem_sortedItems]
  constructor
  · rintro ⟨p, hp, i, hi, rfl⟩
    exact ⟨⟨p.2, Dict.get?_of_mem hdg hp⟩, hi⟩
  · rintro ⟨⟨E, hE⟩, h⟩
    exact ⟨_, Dict.mem_of_get? hE, x.2, h, rfl⟩

private theorem traceOrder_nodup (topo : Topology δ) {dg : Dict δ (FacetElement P K)} (hdg : Dict.WF dg) :
    (traceOrder topo dg).Nodup := by
  rw [traceOrder, List.nodup_flatMap]
  refine ⟨fun p _ => List.nodup_range.map fun a b h => by simpa using h, ?_⟩
  refine (sortedItems_pairwise_lt hdg).imp ?_
  intro a b hab x hx hy
  simp only [List.mem_map] at hx hy
  obtain ⟨_, _, rfl⟩ := hx
  obtain ⟨_, _, hy⟩ := hy
  simp only [Prod.mk.injEq] at hy
  exact hab.ne hy.1.symm

private theorem pair_loop (n : δ × ℕ → ℕ) (Pf : δ × ℕ → List Q) (L : List (δ × ℕ))
    (st : (ℕ × EntityIds δ) × List Q) :
    L.foldl (fun (st : (ℕ × EntityIds δ) × List Q) (x : δ × ℕ) => (blockStep (n x) st.1 x, st.2 ++ Pf x)) st =
      (blockLoop n L st.1, st.2 ++ L.flatMap Pf) := by
  induction L generalizing st with
  | nil => simp [blockLoop]
  | cons a L ih => rw [List.foldl_cons, ih]; simp [blockLoop]

private theorem traceDual_eq (topo : Topology δ) {dg : Dict δ (FacetElement P K)} (hdg : Dict.WF dg)
    (transform : δ → ℕ → P → Q) : traceDual topo dg transform =
      (blockLoop (dgDim dg) (traceOrder topo dg) (0, blankIds topo),
        (traceOrder topo dg).flatMap (dgPoints dg transform)) := by
  have h1 : traceDual topo dg transform = (traceOrder topo dg).foldl
      (fun (st : (ℕ × EntityIds δ) × List Q) (x : δ × ℕ) =>
        (blockStep (dgDim dg x) st.1 x, st.2 ++ dgPoints dg transform x)) ((0, blankIds topo), []) := by
    rw [traceOrder, List.foldl_flatMap, traceDual]
    refine List.foldl_ext _ _ _ fun st p hp => ?_
    rw [List.foldl_map]
    have hg : Dict.get? dg p.1 = some p.2 := Dict.get?_of_mem hdg (mem_sortedItems.1 hp)
    simp only [dgDim, dgPoints, hg, Option.map_some, Option.getD_some]
  rw [h1, pair_loop, List.nil_append]

private theorem init_parts {sd : ℕ} {topo : Topology δ} {subDim : δ → ℕ} {mk : δ → Option (FacetElement P K)}
    {transform : δ → ℕ → P → Q} {E : TraceElement δ P Q K}
    (h : traceInit sd topo subDim mk transform = some E) :
    2 ≤ sd ∧ E.sd = sd ∧ E.topo = topo ∧ traceDG topo subDim (sd - 1) mk = some E.dg ∧
      E.nodes = (traceDual topo E.dg transform).2 ∧ E.ids = (traceDual topo E.dg transform).1.2 := by
  unfold traceInit at h
  split_ifs at h with h0
  simp only [Option.bind_eq_bind, Option.bind_eq_some_iff] at h
  obtain ⟨dg, h1, h2⟩ := h
  split_ifs at h2
  cases h2
  exact ⟨by omega, rfl, rfl, h1, rfl, rfl⟩

private theorem ids_at {sd : ℕ} {topo : Topology δ} (ht : topo.WF) {subDim : δ → ℕ}
    {mk : δ → Option (FacetElement P K)} {transform : δ → ℕ → P → Q} {E : TraceElement δ P Q K}
    (h : traceInit sd topo subDim mk transform = some E) (d : δ) (e : ℕ) :
    E.ids.at? d e = if (d, e) ∈ traceOrder topo E.dg then
      some (List.range' (blockBefore (dgDim E.dg) (traceOrder topo E.dg) (d, e)) (dgDim E.dg (d, e)))
      else (blankIds topo).at? d e := by
  obtain ⟨h2, hsd, htopo, hdg, hn, hids⟩ := init_parts h
  obtain ⟨hw, _, _⟩ := traceDG_get ht hdg
  rw [hids, traceDual_eq topo hw, (blockLoop_spec _ _ (traceOrder_nodup topo hw) _).2]
  simp

private theorem numbered_mem {sd : ℕ} {topo : Topology δ} {subDim : δ → ℕ}
    {dg : Dict δ (FacetElement P K)} (hw : Dict.WF dg)
    (hk : ∀ d E, Dict.get? dg d = some E → subDim d = sd - 1)
    (hnum : FacetsNumbered topo subDim (sd - 1)) (d : δ) (e : ℕ) :
    (d, e) ∈ traceOrder topo dg ↔ (∃ E, Dict.get? dg d = some E) ∧ ∃ v, HasEntity topo d e v := by
  rw [mem_traceOrder topo hw]
  refine and_congr_right fun ⟨E, hE⟩ => ?_
  unfold numFacets HasEntity
  cases hes : Dict.get? topo d with
  | none => simp
  | some es =>
    have := hnum d es hes (hk d E hE) e
    rw [Option.getD_some, ← this, ← Dict.get?_isSome_iff, Option.isSome_iff_exists]
    simp

/-- C35: the dofs of the trace element are a partition of `range(len(nodes))`, only facets carry dofs, and the dofs
of facet `(d, e)` index the images of the points of the DG element on that facet, in order. -/
theorem trace_dofs {sd : ℕ} {topo : Topology δ} (ht : topo.WF) {subDim : δ → ℕ}
    {mk : δ → Option (FacetElement P K)} {transform : δ → ℕ → P → Q} {E : TraceElement δ P Q K}
    (hnum : FacetsNumbered topo subDim (sd - 1)) (h : traceInit sd topo subDim mk transform = some E) :
    DofsPartition E.ids E.nodes.length ∧ SameEntities topo E.ids ∧
    (∀ d e l, E.ids.at? d e = some l → subDim d ≠ sd - 1 → l = []) ∧
    (∀ d e l el, E.ids.at? d e = some l → subDim d = sd - 1 → mk d = some el →
      l.map (fun i => E.nodes[i]?) = el.points.map fun y => some (transform d e y)) := by
  have hat := ids_at ht h
  obtain ⟨h2, hsd, htopo, hdg, hn, hids⟩ := init_parts h
  obtain ⟨hw, hget, hex⟩ := traceDG_get ht hdg
  have hnd := traceOrder_nodup topo hw
  have hk : ∀ d E', Dict.get? E.dg d = some E' → subDim d = sd - 1 := fun d E' h' => (hget d E' h').2.1
  have hmem := numbered_mem (topo := topo) hw hk hnum
  have hlen : E.nodes.length = 0 + ((traceOrder topo E.dg).map (dgDim E.dg)).sum := by
    rw [hn, traceDual_eq topo hw, List.length_flatMap, Nat.zero_add, ← dgPoints_length E.dg transform]
  refine ⟨?_, ?_, ?_, ?_⟩
  · rw [hids, traceDual_eq topo hw, hlen]
    exact blockLoop_partition _ _ hnd _ (partition_zero _ fun d e l hl => ((blankIds_at topo d e l).1 hl).1)
      fun x _ l hl => ((blankIds_at topo _ _ l).1 hl).1
  · rw [hids, traceDual_eq topo hw]
    exact blockLoop_same topo _ _ hnd _ (blankIds_same topo) fun x hx => ((hmem x.1 x.2).1 hx).2
  · intro d e l hl hne
    rw [hat, if_neg (fun hm => hne (by obtain ⟨⟨E', hE'⟩, _⟩ := (hmem d e).1 hm; exact hk d E' hE'))] at hl
    exact ((blankIds_at topo d e l).1 hl).1
  · intro d e l el hl hs hmk
    have hent : ∃ v, HasEntity topo d e v := by
      rw [hat] at hl
      split_ifs at hl with hm
      · exact ((hmem d e).1 hm).2
      · exact ((blankIds_at topo d e l).1 hl).2
    have hkey : d ∈ Dict.keys topo := by
      obtain ⟨v, es, h1, _⟩ := hent
      exact Dict.get?_isSome_iff.1 (by rw [h1]; rfl)
    obtain ⟨E', hE'⟩ := hex d hkey hs
    have hEE : E' = el := by
      have := (hget d E' hE').2.2
      rw [hmk] at this
      exact (Option.some.inj this).symm
    subst hEE
    have hin : (d, e) ∈ traceOrder topo E.dg := (hmem d e).2 ⟨⟨E', hE'⟩, hent⟩
    rw [hat, if_pos hin] at hl
    cases hl
    have hdim : dgDim E.dg (d, e) = E'.points.length := by simp [dgDim, hE', FacetElement.dim]
    have hpts : dgPoints E.dg transform (d, e) = E'.points.map fun y => transform d e y := by
      simp [dgPoints, hE']
    apply List.ext_getElem?
    intro j
    by_cases hj : j < E'.points.length
    · rw [List.getElem?_map, List.getElem?_range' (by rw [hdim]; exact hj), List.getElem?_map, Option.map_some,
        Nat.one_mul, hn, traceDual_eq topo hw]
      have := flatMap_block (dgPoints E.dg transform) _ _ hin j (by rw [hpts]; simpa using hj)
      rw [dgPoints_length] at this
      rw [this, hpts, List.getElem?_map, List.getElem?_eq_getElem hj]
      rfl
    · rw [List.getElem?_eq_none (by simpa [hdim] using hj), List.getElem?_eq_none (by simpa using hj)]

theorem foldlM_congr_mem {α σ : Type} {l : List α} {f g : σ → α → Option σ} (h : ∀ a ∈ l, ∀ s, f s a = g s a)
    (s : σ) : l.foldlM f s = l.foldlM g s := by
  induction l generalizing s with
  | nil => rfl
  | cons a l ih =>
    rw [List.foldlM_cons, List.foldlM_cons, h a (by simp)]
    congr 1
    funext t
    exact ih (fun b hb => h b (List.mem_cons_of_mem _ hb)) t

private def hitStep (dg : Dict δ (FacetElement P K)) (points : List P) (entity : δ × ℕ)
    (st : ℕ × Option (List (List K) × ℕ × ℕ)) (x : δ × ℕ) : Option (ℕ × Option (List (List K) × ℕ × ℕ)) := do
  let E ← Dict.get? dg x.1
  if x = entity then (unpackOne (E.tab 0 points)).map fun vals => (st.1 + E.dim, some (vals, st.1, E.dim))
  else some (st.1 + E.dim, st.2)

private theorem hit_miss (dg : Dict δ (FacetElement P K)) (points : List P) (entity : δ × ℕ) (L : List (δ × ℕ))
    (hL : ∀ x ∈ L, ∃ E, Dict.get? dg x.1 = some E) (hne : entity ∉ L)
    (st : ℕ × Option (List (List K) × ℕ × ℕ)) :
    L.foldlM (hitStep dg points entity) st = some (st.1 + (L.map (dgDim dg)).sum, st.2) := by
  induction L generalizing st with
  | nil => simp
  | cons a L ih =>
    obtain ⟨E, hE⟩ := hL a (by simp)
    rw [List.mem_cons, not_or] at hne
    have h1 : hitStep dg points entity st a = some (st.1 + dgDim dg a, st.2) := by
      simp only [hitStep, hE, Option.bind_eq_bind, Option.bind_some, if_neg (Ne.symm hne.1), dgDim, Option.map_some,
        Option.getD_some]
    rw [List.foldlM_cons, h1]
    simp only [Option.bind_eq_bind, Option.bind_some]
    rw [ih (fun x hx => hL x (List.mem_cons_of_mem _ hx)) hne.2]
    simp [Nat.add_assoc]

private theorem hit_found (dg : Dict δ (FacetElement P K)) (points : List P) (entity : δ × ℕ) (L : List (δ × ℕ))
    (hL : ∀ x ∈ L, ∃ E, Dict.get? dg x.1 = some E) (hnd : L.Nodup) (hin : entity ∈ L)
    (el : FacetElement P K) (hel : Dict.get? dg entity.1 = some el) (vals : List (List K))
    (hvals : unpackOne (el.tab 0 points) = some vals) (st : ℕ × Option (List (List K) × ℕ × ℕ)) :
    L.foldlM (hitStep dg points entity) st = some (st.1 + (L.map (dgDim dg)).sum,
      some (vals, st.1 + blockBefore (dgDim dg) L entity, el.dim)) := by
  induction L generalizing st with
  | nil => simp at hin
  | cons a L ih =>
    obtain ⟨E, hE⟩ := hL a (by simp)
    rw [List.nodup_cons] at hnd
    rw [List.foldlM_cons]
    by_cases ha : a = entity
    · subst ha
      rw [hel, Option.some.injEq] at hE
      subst hE
      have h1 : hitStep dg points a st a = some (st.1 + dgDim dg a, some (vals, st.1, el.dim)) := by
        simp only [hitStep, hel, Option.bind_eq_bind, Option.bind_some, if_true, hvals, dgDim, Option.map_some,
          Option.getD_some]
      rw [h1]
      simp only [Option.bind_eq_bind, Option.bind_some]
      rw [hit_miss dg points a L (fun x hx => hL x (List.mem_cons_of_mem _ hx)) hnd.1, blockBefore_cons, if_pos rfl]
      simp [Nat.add_assoc]
    · have h1 : hitStep dg points entity st a = some (st.1 + dgDim dg a, st.2) := by
        simp only [hitStep, hE, Option.bind_eq_bind, Option.bind_some, if_neg ha, dgDim, Option.map_some,
          Option.getD_some]
      rw [h1]
      simp only [Option.bind_eq_bind, Option.bind_some]
      rw [ih (fun x hx => hL x (List.mem_cons_of_mem _ hx)) hnd.2 (by simpa [Ne.symm ha] using hin),
        blockBefore_cons, if_neg ha]
      simp [Nat.add_assoc]

variable [Zero K]

private theorem tabulate_loop {E : TraceElement δ P Q K} (hw : Dict.WF E.dg) (order : ℕ) (points : List P)
    (entity : δ × ℕ) (el : FacetElement P K) (hel : Dict.get? E.dg entity.1 = some el) :
    traceTabulateEntity E order points entity =
      ((traceOrder E.topo E.dg).foldlM (hitStep E.dg points entity) (0, none)).bind fun r =>
        r.2.map fun h => traceFinish E.sd order E.nodes.length points.length h.2.1 h.2.2 h.1 := by
  unfold traceTabulateEntity
  rw [hel]
  simp only [Option.bind_eq_bind]
  have e : (traceOrder E.topo E.dg).foldlM (hitStep E.dg points entity) (0, none) =
      (sortedItems E.dg).foldlM (fun st p =>
      (List.range (numFacets E.topo p.1)).foldlM
        (fun (st : ℕ × Option (List (List K) × ℕ × ℕ)) (i : ℕ) =>
          if (p.1, i) = entity then
            (unpackOne (p.2.tab 0 points)).map fun vals => (st.1 + p.2.dim, some (vals, st.1, p.2.dim))
          else some (st.1 + p.2.dim, st.2)) st) ((0, none) : ℕ × Option (List (List K) × ℕ × ℕ)) := by
    rw [traceOrder, foldlM_flatMap]
    refine foldlM_congr_mem ?_ _
    intro p hp st
    rw [List.foldlM_map]
    have hg : Dict.get? E.dg p.1 = some p.2 := Dict.get?_of_mem hw (mem_sortedItems.1 hp)
    simp only [hitStep, hg, Option.bind_eq_bind, Option.bind_some]
  rw [e]
  congr 1
  funext r
  cases r.2 <;> rfl

/-- Specification: the table of a trace element on `npts` points in which the dofs `l` have the values `vals` (one row
per dof, in order), all others are zero, and derivatives are `TraceError`s. -/
def IsTraceTable (sd order npts ndofs : ℕ) (l : List ℕ) (vals : List (List K))
    (tab : Dict (List ℕ) (TraceVal K)) : Prop :=
  (∀ key, key ∈ Dict.keys tab ↔ key.length = sd ∧ key.sum ≤ order) ∧
  (∀ key ∈ Dict.keys tab, key ≠ List.replicate sd 0 → Dict.get? tab key = some .error) ∧
  ∃ rows, Dict.get? tab (List.replicate sd 0) = some (.arr rows) ∧ rows.length = ndofs ∧
    (∀ (q r : ℕ), l[q]? = some r → rows[r]? = vals[q]?) ∧
    ∀ r < ndofs, r ∉ l → rows[r]? = some (List.replicate npts 0)

private theorem get?_map_fun {κ α : Type} [DecidableEq κ] (l : List κ) (f : κ → α) (k : κ) (hk : k ∈ l) :
    Dict.get? (l.map fun k => (k, f k)) k = some (f k) := by
  induction l with
  | nil => simp at hk
  | cons a l ih =>
    rw [List.map_cons, Dict.get?_cons]
    by_cases h : a = k
    · rw [if_pos h, h]
    · rw [if_neg h]; exact ih (by simpa [Ne.symm h] using hk)

private theorem keys_map_fun {κ α : Type} (l : List κ) (f : κ → α) :
    Dict.keys (l.map fun k => (k, f k)) = l := by
  simp [Dict.keys, Function.comp_def]

private theorem finish_table (sd order npts ndofs start nf : ℕ) (vals : List (List K)) (hsd : 1 ≤ sd)
    (hb : start + nf ≤ ndofs) (hv : vals.length = nf) :
    IsTraceTable sd order npts ndofs (List.range' start nf) vals
      (traceFinish sd order ndofs npts start nf vals) := by
  have hk : Dict.keys (traceFinish sd order ndofs npts start nf vals) = jetKeys sd order := keys_map_fun _ _
  refine ⟨fun key => by rw [hk, jetKeys_mem sd order hsd], ?_, ?_⟩
  · intro key hkey hne
    rw [hk] at hkey
    rw [traceFinish, get?_map_fun _ _ _ hkey, if_neg hne, if_pos]
    rw [jetKeys_mem sd order hsd] at hkey
    by_contra h0
    have hz : key.sum = 0 := by omega
    apply hne
    rw [List.eq_replicate_iff]
    refine ⟨hkey.1, fun b hb => ?_⟩
    have := List.single_le_sum (fun _ _ => Nat.zero_le _) b hb
    omega
  · have hz : List.replicate sd 0 ∈ jetKeys sd order := by
      rw [jetKeys_mem sd order hsd]; simp
    refine ⟨_, by rw [traceFinish, get?_map_fun _ _ _ hz, if_pos rfl], by simp [fillRows], ?_, ?_⟩
    · intro q r hq
      have hlt : q < nf := by
        by_contra h
        rw [List.getElem?_eq_none (by simpa using h)] at hq
        exact absurd hq (by simp)
      rw [List.getElem?_range' hlt] at hq
      have hr : r = start + q := by simpa using hq.symm
      subst hr
      rw [fillRows, List.getElem?_map, List.getElem?_range (by omega), Option.map_some, if_pos (by omega),
        Nat.add_sub_cancel_left, List.getElem?_eq_getElem (by omega), List.getD_eq_getElem _ _ (by omega)]
    · intro r hr hn
      rw [List.mem_range'_1] at hn
      rw [fillRows, List.getElem?_map, List.getElem?_range hr, Option.map_some, if_neg hn]

private theorem before_le_sum (n : δ × ℕ → ℕ) (L : List (δ × ℕ)) (x : δ × ℕ) (hx : x ∈ L) :
    blockBefore n L x + n x ≤ (L.map n).sum := by
  induction L with
  | nil => simp at hx
  | cons a L ih =>
    rw [blockBefore_cons, List.map_cons, List.sum_cons]
    split_ifs with h
    · subst h; omega
    · have := ih (by simpa [Ne.symm h] using hx); omega

/-- C35: `tabulate` on a facet fills exactly the rows of that facet's dofs with the values of the facet's DG element
at the given points (any order: derivatives become `TraceError`s). -/
theorem trace_tabulate_facet {sd : ℕ} {topo : Topology δ} (ht : topo.WF) {subDim : δ → ℕ}
    {mk : δ → Option (FacetElement P K)} {transform : δ → ℕ → P → Q} {E : TraceElement δ P Q K}
    (hnum : FacetsNumbered topo subDim (sd - 1)) (h : traceInit sd topo subDim mk transform = some E)
    (d : δ) (e : ℕ) (v : List ℕ) (hent : HasEntity topo d e v) (hs : subDim d = sd - 1)
    (el : FacetElement P K) (hmk : mk d = some el) (points : List P) (key : List ℕ) (vals : List (List K))
    (hvals : el.tab 0 points = [(key, vals)]) (hlen : vals.length = el.points.length) (order : ℕ) :
    ∃ l tab, E.ids.at? d e = some l ∧ traceTabulateEntity E order points (d, e) = some tab ∧
      IsTraceTable sd order points.length E.nodes.length l vals tab := by
  have hat := ids_at ht h d e
  obtain ⟨h2, hsd, htopo, hdg, hn, hids⟩ := init_parts h
  obtain ⟨hw, hget, hex⟩ := traceDG_get ht hdg
  have hkey : d ∈ Dict.keys topo := by
    obtain ⟨es, h1, _⟩ := hent
    exact Dict.get?_isSome_iff.1 (by rw [h1]; rfl)
  obtain ⟨E', hE'⟩ := hex d hkey hs
  have hEE : E' = el := by
    have := (hget d E' hE').2.2
    rw [hmk] at this
    exact (Option.some.inj this).symm
  subst hEE
  have hmem := numbered_mem (topo := topo) hw (fun d E' h' => (hget d E' h').2.1) hnum
  have hin : (d, e) ∈ traceOrder topo E.dg := (hmem d e).2 ⟨⟨E', hE'⟩, v, hent⟩
  rw [if_pos hin] at hat
  have hdim : dgDim E.dg (d, e) = E'.dim := by simp [dgDim, hE']
  have hlenN : E.nodes.length = ((traceOrder topo E.dg).map (dgDim E.dg)).sum := by
    rw [hn, traceDual_eq topo hw, List.length_flatMap, ← dgPoints_length E.dg transform]
  refine ⟨_, traceFinish E.sd order E.nodes.length points.length
    (blockBefore (dgDim E.dg) (traceOrder topo E.dg) (d, e)) E'.dim vals, hat, ?_, ?_⟩
  · rw [tabulate_loop hw order points (d, e) E' hE', htopo,
      hit_found E.dg points (d, e) _ (fun x hx => ((mem_traceOrder topo hw x).1 hx).1)
        (traceOrder_nodup topo hw) hin E' hE' vals (by rw [hvals]; rfl)]
    simp only [Option.bind_some, Option.map_some, Nat.zero_add]
  · rw [hsd, hdim]
    refine finish_table sd order _ _ _ _ vals (by omega) ?_ hlen
    rw [hlenN, ← hdim]
    exact before_le_sum _ _ _ hin

/-- C35: on an entity that is not a facet every entry of the table is a `TraceError`. -/
theorem trace_tabulate_other {sd : ℕ} {topo : Topology δ} (ht : topo.WF) {subDim : δ → ℕ}
    {mk : δ → Option (FacetElement P K)} {transform : δ → ℕ → P → Q} {E : TraceElement δ P Q K}
    (h : traceInit sd topo subDim mk transform = some E) (d : δ) (e : ℕ) (hs : subDim d ≠ sd - 1)
    (points : List P) (order : ℕ) :
    ∃ tab, traceTabulateEntity E order points (d, e) = some tab ∧
      (∀ key, key ∈ Dict.keys tab ↔ key.length = sd ∧ key.sum ≤ order) ∧
      ∀ key ∈ Dict.keys tab, Dict.get? tab key = some .error := by
  obtain ⟨h2, hsd, htopo, hdg, hn, hids⟩ := init_parts h
  obtain ⟨hw, hget, hex⟩ := traceDG_get ht hdg
  have hnone : Dict.get? E.dg d = none := by
    cases hh : Dict.get? E.dg d with
    | none => rfl
    | some E' => exact absurd (hget d E' hh).2.1 hs
  refine ⟨_, by rw [traceTabulateEntity, hnone], ?_, ?_⟩
  · intro key
    rw [keys_map_fun (jetKeys E.sd order) (fun _ => TraceVal.error), hsd, jetKeys_mem sd order (by omega)]
  · intro key hkey
    rw [keys_map_fun (jetKeys E.sd order) (fun _ => TraceVal.error)] at hkey
    exact get?_map_fun _ (fun _ => TraceVal.error) _ hkey

/-- C35: a facet number that the cell does not have is an error, not a table of zeros. -/
theorem trace_tabulate_missing {sd : ℕ} {topo : Topology δ} (ht : topo.WF) {subDim : δ → ℕ}
    {mk : δ → Option (FacetElement P K)} {transform : δ → ℕ → P → Q} {E : TraceElement δ P Q K}
    (hnum : FacetsNumbered topo subDim (sd - 1)) (h : traceInit sd topo subDim mk transform = some E)
    (d : δ) (hd : d ∈ Dict.keys topo) (hs : subDim d = sd - 1) (e : ℕ)
    (hent : ∀ v, ¬ HasEntity topo d e v) (points : List P) (order : ℕ) :
    traceTabulateEntity E order points (d, e) = none := by
  obtain ⟨h2, hsd, htopo, hdg, hn, hids⟩ := init_parts h
  obtain ⟨hw, hget, hex⟩ := traceDG_get ht hdg
  obtain ⟨E', hE'⟩ := hex d hd hs
  have hmem := numbered_mem (topo := topo) hw (fun d E' h' => (hget d E' h').2.1) hnum
  rw [tabulate_loop hw order points (d, e) E' hE', htopo,
    hit_miss E.dg points (d, e) _ (fun x hx => ((mem_traceOrder topo hw x).1 hx).1)
      (fun hm => by obtain ⟨v, hv⟩ := ((hmem d e).1 hm).2; exact hent v hv)]
  rfl

end element

section simplex
variable {K : Type} [Field K] [LinearOrder K] {n : ℕ}

private theorem single_dg {P K : Type} {dg : Dict ℕ (FacetElement P K)} (hw : Dict.WF dg) {m : ℕ}
    {el : FacetElement P K} (hel : Dict.get? dg m = some el) (hk : ∀ d E, Dict.get? dg d = some E → d = m) :
    dg = [(m, el)] := by
  have h1 : ∀ p ∈ dg, p = (m, el) := by
    intro p hp
    have h2 := Dict.get?_of_mem hw hp
    have h3 := hk _ _ h2
    rw [h3, hel, Option.some.injEq] at h2
    exact Prod.ext h3 h2.symm
  have h4 := Dict.mem_of_get? hel
  have hnd : dg.Nodup := List.Nodup.of_map _ hw
  refine List.perm_singleton.1 ((List.perm_ext_iff_of_nodup hnd (List.nodup_singleton _)).2 fun p => ?_)
  rw [List.mem_singleton]
  exact ⟨h1 p, fun h => h ▸ h4⟩

private theorem before_range {δ : Type} [LinearOrder δ] (n : δ × ℕ → ℕ) (d : δ) (m c i : ℕ) (hi : i < m)
    (hn : ∀ j, n (d, j) = c) (s : ℕ) :
    blockBefore n ((List.range' s m).map fun j => (d, j)) (d, s + i) = c * i := by
  induction m generalizing i s with
  | zero => omega
  | succ m ih =>
    rw [List.range'_succ, List.map_cons, blockBefore_cons]
    rcases i with _ | i
    · simp
    · rw [if_neg (by simp), hn]
      have := ih i (by omega) (s + 1)
      rw [show s + (i + 1) = s + 1 + i by omega, this, Nat.mul_succ, Nat.add_comm]

/-- C35: on a simplex, tabulating at points that lie on a unique facet `i` without naming the facet is the same as
tabulating on facet `i` at the corresponding facet points. -/
theorem trace_tabulate_points {tol : K} {topo : Topology ℕ} (ht : topo.WF)
    {mk : ℕ → Option (FacetElement (Fin n → K) K)} {transform : ℕ → ℕ → (Fin n → K) → Fin (n + 1) → K}
    {E : TraceElement ℕ (Fin n → K) (Fin (n + 1) → K) K}
    (h : traceInit (n + 1) topo id mk transform = some E)
    {v : Fin (n + 2) → Fin (n + 1) → K} (hv : AffineIndependent K v) (i : Fin (n + 2))
    (hi : (i : ℕ) < numFacets topo n)
    (htr : transform n i = entityTransform (ufcVerts K n) fun j => v (i.succAbove j))
    (ys : List (Fin n → K)) (hys : ys ≠ [])
    (hon : ∀ j, (∀ y ∈ ys, ∀ c, HasBary v c (transform n i y) → |c j| < tol) ↔ j = i) :
    traceTabulatePoints tol E v 0 (ys.map (transform n i)) = traceTabulateEntity E 0 ys (n, (i : ℕ)) := by
  obtain ⟨h2, hsd, htopo, hdg, hn, hids⟩ := init_parts h
  obtain ⟨hw, hget, hex⟩ := traceDG_get ht hdg
  have hkey : n ∈ Dict.keys topo := by
    rw [← Dict.get?_isSome_iff]
    unfold numFacets at hi
    cases hh : Dict.get? topo n with
    | none => rw [hh] at hi; simp at hi
    | some es => rfl
  obtain ⟨el, hel⟩ := hex n hkey (by simp)
  have hdg1 := single_dg hw hel (fun d E' h' => by simpa using (hget d E' h').2.1)
  obtain ⟨cs, hc1, hc2⟩ := barycentric_coordinates_spec hv (ys.map (transform n i))
  have hu : extractUniqueFacet tol cs = some (some i) := by
    rw [extract_unique_facet_spec]
    refine ⟨?_, fun j => ?_⟩
    · rintro rfl
      rw [List.forall₂_nil_right_iff] at hc2
      exact hys (List.map_eq_nil_iff.1 hc2)
    · rw [← hon j]
      rw [List.forall₂_map_left_iff] at hc2
      clear hc1 hon
      induction hc2 with
      | nil => simp
      | cons hyc _ ih =>
        rename_i y c ys' cs' _
        simp only [List.mem_cons, forall_eq_or_imp]
        refine and_congr ?_ ?_
        · constructor
          · intro hj c' hc'
            rw [(hyc c').1 hc']; exact hj
          · intro hj
            exact hj c ((hyc c).2 rfl)
        · by_cases hy0 : ys' = []
          · subst hy0
            rename_i hf
            rw [List.forall₂_nil_left_iff] at hf
            subst hf; simp
          · exact ih hy0
  have hmap : mapToReferenceFacet (ys.map (transform n i)) v i = some ys := by
    rw [htr]; exact map_to_reference_facet_spec hv i ys
  have hlhs : traceTabulatePoints tol E v 0 (ys.map (transform n i)) =
      (unpackOne (el.tab 0 ys)).map fun vals =>
        traceFinish E.sd 0 E.nodes.length ys.length (el.dim * (i : ℕ)) el.dim vals := by
    rw [traceTabulatePoints, hc1]
    simp only [Option.bind_eq_bind, Option.bind_some, hu, hmap, hsd, Nat.add_sub_cancel, hel, List.length_map]
    cases unpackOne (el.tab 0 ys) <;> rfl
  rw [hlhs]
  have hin : (n, (i : ℕ)) ∈ traceOrder topo E.dg := (mem_traceOrder topo hw _).2 ⟨⟨el, hel⟩, hi⟩
  rw [tabulate_loop hw 0 ys (n, (i : ℕ)) el hel, htopo]
  cases hval : unpackOne (el.tab 0 ys) with
  | some vals =>
    rw [hit_found E.dg ys (n, (i : ℕ)) _ (fun x hx => ((mem_traceOrder topo hw x).1 hx).1)
        (traceOrder_nodup topo hw) hin el hel vals hval]
    simp only [Option.map_some, Option.bind_some, Nat.zero_add]
    have ho : traceOrder topo E.dg = (List.range' 0 (numFacets topo n)).map fun j => (n, j) := by
      rw [traceOrder, hdg1]
      simp [sortedItems, List.range_eq_range']
    have hb := before_range (dgDim E.dg) n (numFacets topo n) el.dim i hi (fun j => by simp [dgDim, hel]) 0
    rw [Nat.zero_add] at hb
    rw [ho, hb]
  | none =>
    obtain ⟨L1, L2, hL⟩ := List.append_of_mem hin
    have hnd := traceOrder_nodup topo hw
    rw [hL] at hnd
    have hall : ∀ x ∈ L1 ++ (n, (i : ℕ)) :: L2, ∃ E', Dict.get? E.dg x.1 = some E' := by
      rw [← hL]; exact fun x hx => ((mem_traceOrder topo hw x).1 hx).1
    rw [hL, List.foldlM_append, hit_miss E.dg ys (n, (i : ℕ)) L1 (fun x hx => hall x (by simp [hx]))
      (fun hm => (List.nodup_append.1 hnd).2.2 _ hm _ (by simp) rfl)]
    simp only [Option.bind_eq_bind, Option.bind_some, List.foldlM_cons, hitStep, hel, if_true, hval]
    rfl

/-- C35: points that are not on a unique facet give an array of `nan` under every key. -/
theorem trace_tabulate_nan {tol : K} {topo : Topology ℕ}
    {mk : ℕ → Option (FacetElement (Fin n → K) K)} {transform : ℕ → ℕ → (Fin n → K) → Fin (n + 1) → K}
    {E : TraceElement ℕ (Fin n → K) (Fin (n + 1) → K) K}
    (h : traceInit (n + 1) topo id mk transform = some E)
    {v : Fin (n + 2) → Fin (n + 1) → K} (hv : AffineIndependent K v)
    (xs : List (Fin (n + 1) → K)) (hxs : xs ≠ []) (order : ℕ)
    (hon : ¬ ∃ i, ∀ j, (∀ x ∈ xs, ∀ c, HasBary v c x → |c j| < tol) ↔ j = i) :
    ∃ tab, traceTabulatePoints tol E v order xs = some tab ∧
      (∀ key, key ∈ Dict.keys tab ↔ key.length = n + 1 ∧ key.sum ≤ order) ∧
      ∀ key ∈ Dict.keys tab, Dict.get? tab key = some (.nan E.nodes.length xs.length) := by
  obtain ⟨h2, hsd, htopo, hdg, hn, hids⟩ := init_parts h
  obtain ⟨cs, hc1, hc2⟩ := barycentric_coordinates_spec hv xs
  have hcs : ∀ j, (∀ c ∈ cs, |c j| < tol) ↔ ∀ x ∈ xs, ∀ c, HasBary v c x → |c j| < tol := by
    intro j
    clear hc1 hon hxs
    induction hc2 with
    | nil => simp
    | cons hyc _ ih =>
      rename_i y c ys' cs' _
      simp only [List.mem_cons, forall_eq_or_imp]
      refine and_congr ⟨fun hj c' hc' => ?_, fun hj => hj c ((hyc c).2 rfl)⟩ ih
      rw [(hyc c').1 hc']; exact hj
  have hu : extractUniqueFacet tol cs = some none := by
    rw [(extract_unique_facet_fail tol cs).2]
    refine ⟨?_, ?_⟩
    · rintro rfl
      rw [List.forall₂_nil_right_iff] at hc2
      exact hxs hc2
    · rintro ⟨i, hi⟩
      exact hon ⟨i, fun j => by rw [← hcs j]; exact hi j⟩
  refine ⟨(jetKeys E.sd order).map fun key => (key, .nan E.nodes.length xs.length), ?_, ?_, ?_⟩
  · rw [traceTabulatePoints, hc1]
    simp only [Option.bind_eq_bind, Option.bind_some, hu]
  · intro key
    rw [keys_map_fun (jetKeys E.sd order) (fun _ => TraceVal.nan E.nodes.length xs.length), hsd,
      jetKeys_mem _ order (by omega)]
  · intro key hkey
    rw [keys_map_fun (jetKeys E.sd order) (fun _ => TraceVal.nan E.nodes.length xs.length)] at hkey
    exact get?_map_fun _ (fun _ => TraceVal.nan E.nodes.length xs.length) _ hkey

/-- C35 (finding): without an entity, a positive derivative order is not answered with `TraceError`s: if the points are
on a unique facet and the facet element's table has more than one entry (as every element's does for a positive order),
`tabulate` raises. -/
theorem trace_tabulate_points_derivative {tol : K} {E : TraceElement ℕ (Fin n → K) (Fin (n + 1) → K) K}
    {v : Fin (n + 2) → Fin (n + 1) → K} (order : ℕ) (xs : List (Fin (n + 1) → K))
    (htab : ∀ el ys, Dict.get? E.dg (E.sd - 1) = some el → (el.tab order ys).length ≠ 1)
    (cs : List (Fin (n + 2) → K)) (hcs : barycentricCoordinates xs v = some cs) (i : Fin (n + 2))
    (hon : cs ≠ [] ∧ OnlyFacet tol cs i) :
    traceTabulatePoints tol E v order xs = none := by
  rw [traceTabulatePoints, hcs]
  simp only [Option.bind_eq_bind, Option.bind_some, (extract_unique_facet_spec tol cs i).2 hon]
  cases mapToReferenceFacet xs v i with
  | none => rfl
  | some ys =>
    cases hel : Dict.get? E.dg (E.sd - 1) with
    | none => rfl
    | some el =>
      have := htab el ys hel
      simp only [Option.bind_some]
      have hn : unpackOne (el.tab order ys) = none := by
        revert this
        rcases el.tab order ys with _ | ⟨a, _ | ⟨b, l⟩⟩ <;> simp [unpackOne]
      rw [hn]; rfl

/-- On the UFC triangle and tetrahedron, facet `i` is opposite vertex `i`, with its vertices in increasing order. -/
theorem facet_transform_triangle (i : Fin 3) :
    facetTransform (n := 1) ((ufcTriangle : CellData K).toSimplex 2) i =
      some (entityTransform (ufcVerts K 1) fun j => ufcVerts K 2 (i.succAbove j)) := by
  fin_cases i <;>
  · refine congrArg some ?_
    congr 1
    funext j l
    fin_cases j <;> fin_cases l <;> rfl

theorem facet_transform_tetrahedron (i : Fin 4) :
    facetTransform (n := 2) ((ufcTetrahedron : CellData K).toSimplex 3) i =
      some (entityTransform (ufcVerts K 2) fun j => ufcVerts K 3 (i.succAbove j)) := by
  fin_cases i <;>
  · refine congrArg some ?_
    congr 1
    funext j l
    fin_cases j <;> fin_cases l <;> rfl

/-- `HDivTrace` on the UFC triangle with the DG element `el` on the facets. -/
noncomputable def traceTriangle (el : FacetElement (Fin 1 → K) K) :
    Option (TraceElement ℕ (Fin 1 → K) (Fin 2 → K) K) :=
  traceInit 2 ((ufcTriangle : CellData K).toSimplex 2).topo id (fun d => if d = 1 then some el else none)
    fun _ i => (facetTransform (n := 1) ((ufcTriangle : CellData K).toSimplex 2) i).getD fun _ => 0

/-- `HDivTrace` on the UFC tetrahedron with the DG element `el` on the facets. -/
noncomputable def traceTetrahedron (el : FacetElement (Fin 2 → K) K) :
    Option (TraceElement ℕ (Fin 2 → K) (Fin 3 → K) K) :=
  traceInit 3 ((ufcTetrahedron : CellData K).toSimplex 3).topo id (fun d => if d = 2 then some el else none)
    fun _ i => (facetTransform (n := 2) ((ufcTetrahedron : CellData K).toSimplex 3) i).getD fun _ => 0

private theorem facetsNumbered_of {topo : Topology ℕ} {m : ℕ}
    (h : ∀ es, Dict.get? topo m = some es → Dict.keys es = List.range es.length) :
    FacetsNumbered topo id m := by
  intro d es hes hd e
  have : d = m := hd
  subst this
  rw [h es hes, List.mem_range]

/-- C35: on the UFC triangle and tetrahedron the trace element with an `nf`-dimensional facet element has `3 nf` and `4 nf`
dofs, `nf` on each facet and none elsewhere. -/
theorem trace_triangle_dofs (el : FacetElement (Fin 1 → K) K) :
    ∃ E, traceTriangle el = some E ∧ E.nodes.length = 3 * el.points.length ∧ DofsPartition E.ids E.nodes.length ∧
      ∀ d e l, E.ids.at? d e = some l → l.length = if d = 1 then el.points.length else 0 := by
  have ht : ((ufcTriangle : CellData K).toSimplex 2).topo.WF := (proper_ufcTriangle (K := ℚ)).2.1.1
  have hi : ∃ E, traceTriangle el = some E := ⟨_, rfl⟩
  obtain ⟨E, hE⟩ := hi
  refine ⟨E, hE, ?_⟩
  have hnum : FacetsNumbered ((ufcTriangle : CellData K).toSimplex 2).topo id (2 - 1) :=
    facetsNumbered_of fun es hes => by cases hes; rfl
  obtain ⟨h1, h2, h3, h4⟩ := trace_dofs ht hnum hE
  refine ⟨?_, h1, ?_⟩
  · cases hE
    have : ∀ f0 f1 f2 : (Fin 1 → K) → Fin 2 → K,
        ((([] ++ el.points.map f0) ++ el.points.map f1) ++ el.points.map f2).length = 3 * el.points.length := by
      intro f0 f1 f2; simp; omega
    exact this _ _ _
  · intro d e l hl
    split_ifs with hd
    · have := h4 d e l el hl (by simp [hd]) (by simp [hd])
      simpa using congrArg List.length this
    · rw [h3 d e l hl (by simpa using hd)]; rfl

theorem trace_tetrahedron_dofs (el : FacetElement (Fin 2 → K) K) :
    ∃ E, traceTetrahedron el = some E ∧ E.nodes.length = 4 * el.points.length ∧
      DofsPartition E.ids E.nodes.length ∧
      ∀ d e l, E.ids.at? d e = some l → l.length = if d = 2 then el.points.length else 0 := by
  have ht : ((ufcTetrahedron : CellData K).toSimplex 3).topo.WF := (proper_ufcTetrahedron (K := ℚ)).2.1.1
  have hi : ∃ E, traceTetrahedron el = some E := ⟨_, rfl⟩
  obtain ⟨E, hE⟩ := hi
  refine ⟨E, hE, ?_⟩
  have hnum : FacetsNumbered ((ufcTetrahedron : CellData K).toSimplex 3).topo id (3 - 1) :=
    facetsNumbered_of fun es hes => by cases hes; rfl
  obtain ⟨h1, h2, h3, h4⟩ := trace_dofs ht hnum hE
  refine ⟨?_, h1, ?_⟩
  · cases hE
    have : ∀ f0 f1 f2 f3 : (Fin 2 → K) → Fin 3 → K,
        (((([] ++ el.points.map f0) ++ el.points.map f1) ++ el.points.map f2) ++ el.points.map f3).length =
          4 * el.points.length := by
      intro f0 f1 f2 f3; simp; omega
    exact this _ _ _ _
  · intro d e l hl
    split_ifs with hd
    · have := h4 d e l el hl (by simp [hd]) (by simp [hd])
      simpa using congrArg List.length this
    · rw [h3 d e l hl (by simpa using hd)]; rfl

end simplex

/-! ### Non-vacuity -/

/-- The DG element of degree 0 on the interval: one point, constant one. -/
private def dg0 : FacetElement (Fin 1 → ℚ) ℚ := ⟨[fun _ => 1 / 2], fun _ ys => [([0], [ys.map fun _ => 1])]⟩

/-- Tabulating the lowest-order trace element on facet 1 of the UFC triangle at two points: the rows are 0, 1, 0. -/
example : ∃ E tab, traceTriangle dg0 = some E ∧
    traceTabulateEntity E 1 [fun _ => 0, fun _ => 1] (1, 1) = some tab ∧
    Dict.get? tab [0, 1] = some .error ∧ ∃ rows, Dict.get? tab [0, 0] = some (.arr rows) ∧ rows[1]? = some [1, 1] ∧
      rows[0]? = some [0, 0] := by
  obtain ⟨E, hE, hn, _, _⟩ := trace_triangle_dofs dg0
  have hnum : FacetsNumbered ((ufcTriangle : CellData ℚ).toSimplex 2).topo id (2 - 1) :=
    facetsNumbered_of fun es hes => by cases hes; rfl
  obtain ⟨l, tab, hl, htab, h1, h2, rows, h3, h4, h5, h6⟩ := trace_tabulate_facet
    (proper_ufcTriangle (K := ℚ)).2.1.1 hnum hE 1 1 [0, 2] ⟨_, rfl, rfl⟩ rfl dg0 rfl [fun _ => 0, fun _ => 1] [0] [[1, 1]]
    rfl rfl 1
  have hl' : l = [1] := by cases hE; cases hl; rfl
  subst hl'
  refine ⟨E, tab, hE, htab, h2 [0, 1] ((h1 _).2 ⟨rfl, by decide⟩) (by decide), rows, h3, ?_, ?_⟩
  · have := h5 0 1 rfl; simpa using this
  · have := h6 0 (by rw [hn]; decide) (by decide); simpa using this

/-- The midpoint of facet 0 of the UFC triangle lies on facet 0 only: tabulating there without naming the facet. -/
example : ∃ E, traceTriangle dg0 = some E ∧
    traceTabulatePoints (1 / 10 ^ 10) E (ufcVerts ℚ 2) 0
      ([fun _ => 1 / 2].map (entityTransform (ufcVerts ℚ 1) fun j => ufcVerts ℚ 2 ((0 : Fin 3).succAbove j))) =
    traceTabulateEntity E 0 [fun _ => 1 / 2] (1, 0) := by
  obtain ⟨E, hE, hn, _, _⟩ := trace_triangle_dofs dg0
  refine ⟨E, hE, ?_⟩
  have htr : (facetTransform (n := 1) ((ufcTriangle : CellData ℚ).toSimplex 2) ((0 : Fin 3) : ℕ)).getD (fun _ => 0) =
      entityTransform (ufcVerts ℚ 1) fun j => ufcVerts ℚ 2 ((0 : Fin 3).succAbove j) := by
    rw [facet_transform_triangle]; rfl
  have := trace_tabulate_points (n := 1) (tol := (1 : ℚ) / 10 ^ 10) (proper_ufcTriangle (K := ℚ)).2.1.1 hE
    (ufcVerts_affineIndependent 2) 0 (by decide) htr [fun _ => 1 / 2] (by simp) (by
      intro j
      simp only [List.mem_singleton, forall_eq]
      have hb : HasBary (ufcVerts ℚ 2) ![0, 1 / 2, 1 / 2]
          (entityTransform (ufcVerts ℚ 1) (fun j => ufcVerts ℚ 2 ((0 : Fin 3).succAbove j)) fun _ => 1 / 2) := by
        have h0 : (fun _ => 1 / 2 : Fin 1 → ℚ) = fun l => ∑ i, (![1 / 2, 1 / 2] : Fin 2 → ℚ) i * ufcVerts ℚ 1 i l := by
          funext l; rw [Fin.sum_univ_succ]; simp [ufcVerts, Subsingleton.elim l 0]
        rw [h0, entity_transform_bary _ _ (by simp [Fin.sum_univ_two]; norm_num)]
        refine ⟨by simp [Fin.sum_univ_three]; norm_num, fun l => ?_⟩
        beta_reduce
        rw [Fin.sum_univ_three, Fin.sum_univ_two]
        have e0 : (0 : Fin 3).succAbove 0 = 1 := rfl
        have e1 : (0 : Fin 3).succAbove 1 = 2 := rfl
        rw [e0, e1]
        simp
      rw [htr]
      constructor
      · intro hc
        have := hc _ hb
        fin_cases j
        · rfl
        · norm_num at this
        · norm_num at this
      · rintro rfl c hc
        rw [hasBary_unique (ufcVerts_affineIndependent 2) hc hb]
        norm_num)
  rw [← htr]
  exact this

/-- The barycentre of the UFC triangle is on no facet. -/
example : ¬ ∃ i, ∀ j, (∀ x ∈ [fun _ => (1 : ℚ) / 3], ∀ c, HasBary (ufcVerts ℚ 2) c x → |c j| < 1 / 10 ^ 10) ↔ j = i := by
  rintro ⟨i, hi⟩
  have hb : HasBary (ufcVerts ℚ 2) (fun _ => (1 : ℚ) / 3) fun _ => 1 / 3 :=
    ⟨by simp [Fin.sum_univ_three], fun l => by
      rw [Fin.sum_univ_succ]; simp [ufcVerts]⟩
  have := (hi i).2 rfl _ (by simp) _ hb
  norm_num at this

end FIAT
