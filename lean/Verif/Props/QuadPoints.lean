/-
C77: quadrature elements.  C78: `polynomial_set.project`.
-/
import Verif.Model.QuadPoints
import Verif.Props.Discontinuous
import Verif.Props.FunctionalClasses
import Mathlib.Tactic.Linarith

namespace FIAT

/-- Specification: the points agree coordinate by coordinate up to `10⁻¹²`. -/
def PointsMatch (ps qs : List (List ℝ)) : Prop :=
  ps.length = qs.length ∧ ∀ (j : ℕ) (p q : List ℝ), ps[j]? = some p → qs[j]? = some q → ∀ (i : ℕ) (x y : ℝ), p[i]? = some x → q[i]? = some y → |x - y| ≤ 1 / 10 ^ 12

theorem foldl_max_le (xs : List ℝ) (x c : ℝ) : xs.foldl max x ≤ c ↔ x ≤ c ∧ ∀ y ∈ xs, y ≤ c := by
  induction xs generalizing x with
  | nil => simp
  | cons y ys ih => rw [List.foldl_cons, ih, max_le_iff, List.forall_mem_cons, and_assoc]

theorem absDiffs_mem {ps qs : List (List ℝ)} {z : ℝ} :
    z ∈ absDiffs ps qs ↔ ∃ (j : ℕ) (p q : List ℝ) (i : ℕ) (x y : ℝ), ps[j]? = some p ∧ qs[j]? = some q ∧ p[i]? = some x ∧ q[i]? = some y ∧ z = |x - y| := by
  unfold absDiffs
  rw [List.mem_flatten]
  constructor
  · rintro ⟨l, hl, hz⟩
    obtain ⟨j, hj⟩ := List.mem_iff_getElem?.1 hl
    rw [List.getElem?_zipWith_eq_some] at hj
    obtain ⟨p, q, hp, hq, rfl⟩ := hj
    obtain ⟨i, hi⟩ := List.mem_iff_getElem?.1 hz
    rw [List.getElem?_zipWith_eq_some] at hi
    obtain ⟨x, y, hx, hy, rfl⟩ := hi
    exact ⟨j, p, q, i, x, y, hp, hq, hx, hy, rfl⟩
  · rintro ⟨j, p, q, i, x, y, hp, hq, hx, hy, rfl⟩
    refine ⟨_, List.mem_iff_getElem?.2 ⟨j, List.getElem?_zipWith_eq_some.2 ⟨p, q, hp, hq, rfl⟩⟩, List.mem_iff_getElem?.2 ⟨i, List.getElem?_zipWith_eq_some.2 ⟨x, y, hx, hy, rfl⟩⟩⟩

theorem absDiffs_ne_nil {ps qs : List (List ℝ)} {sd : ℕ} (hsd : 1 ≤ sd) (hq : qs ≠ []) (hl : ps.length = qs.length)
    (h1 : ∀ p ∈ ps, p.length = sd) (h2 : ∀ q ∈ qs, q.length = sd) : absDiffs ps qs ≠ [] := by
  match ps, qs, hq with
  | [], q :: qs, _ => simp at hl
  | p :: ps, q :: qs, _ =>
    have e1 := h1 p (by simp)
    have e2 := h2 q (by simp)
    match p, q with
    | [], _ => simp at e1; omega
    | _ :: _, [] => simp at e2; omega
    | _ :: _, _ :: _ => simp [absDiffs]

variable {δ : Type} [LinearOrder δ] {topo : Topology δ} {cd : δ} {sd : ℕ} {qs ps : List (List ℝ)}

/-- C77: `tabulate` returns a table exactly for order zero, on the cell, at the points of the element; it is then the identity matrix under
the multi-index zero. -/
theorem quadrature_element_tabulate (hsd : 1 ≤ sd) (hq : qs ≠ []) (hqs : ∀ q ∈ qs, q.length = sd) (hps : ∀ p ∈ ps, p.length = sd)
    (order : ℕ) (entity : Option (δ × ℕ)) (t : Dict (List ℕ) (Matrix (Fin qs.length) (Fin qs.length) ℝ)) :
    (mkQuadratureEl topo cd sd qs).tabulate order ps entity = .ok t ↔
      order = 0 ∧ (entity = none ∨ entity = some (cd, 0)) ∧ PointsMatch ps qs ∧
      t = [(List.replicate sd 0, Matrix.of fun i j => if i = j then 1 else 0)] := by
  have h1 : (1 : Matrix (Fin qs.length) (Fin qs.length) ℝ) = Matrix.of fun i j => if i = j then 1 else 0 := by
    ext i j; rw [Matrix.one_apply]; rfl
  rw [← h1]
  unfold QuadratureEl.tabulate
  by_cases he : entity ≠ none ∧ entity ≠ some (cd, 0)
  · rw [if_pos (by exact he)]
    constructor
    · intro h; cases h
    · rintro ⟨-, h | h, -⟩
      · exact absurd h he.1
      · exact absurd h he.2
  rw [if_neg (by exact he)]
  by_cases ho : order ≠ 0
  · rw [if_pos ho]
    exact ⟨fun h => (nomatch h), fun h => absurd h.1 ho⟩
  rw [if_neg ho]
  by_cases hl : ps.length ≠ qs.length
  · rw [if_pos (by exact hl)]
    exact ⟨fun h => (nomatch h), fun h => absurd h.2.2.1.1 hl⟩
  rw [if_neg (by exact hl)]
  push Not at hl ho
  have hen : entity = none ∨ entity = some (cd, 0) := by tauto
  have hne := absDiffs_ne_nil hsd hq hl hps hqs
  change (match npMax (absDiffs ps qs) with
    | .error e => .error e
    | .ok m => if m > 1 / 10 ^ 12 then .error .assertionError else .ok [(List.replicate sd 0, 1)]) = Except.ok t ↔ _
  obtain ⟨x, xs, hx⟩ := List.exists_cons_of_ne_nil hne
  have hm : xs.foldl max x ≤ 1 / 10 ^ 12 ↔ PointsMatch ps qs := by
    rw [foldl_max_le, ← List.forall_mem_cons (p := fun y => y ≤ _), ← hx]
    constructor
    · intro h
      exact ⟨hl, fun j p q hp hq' i x y hx hy => h _ (absDiffs_mem.2 ⟨j, p, q, i, x, y, hp, hq', hx, hy, rfl⟩)⟩
    · rintro ⟨-, h⟩ z hz
      obtain ⟨j, p, q, i, x, y, hp, hq', hx, hy, rfl⟩ := absDiffs_mem.1 hz
      exact h j p q hp hq' i x y hx hy
  rw [hx]
  change (if xs.foldl max x > 1 / 10 ^ 12 then Except.error QuadFail.assertionError else .ok [(List.replicate sd 0, 1)]) = Except.ok t ↔ _
  by_cases hc : xs.foldl max x > 1 / 10 ^ 12
  · rw [if_pos hc]
    exact ⟨fun h => (nomatch h), fun h => absurd (hm.2 h.2.2.1) (not_le.2 hc)⟩
  · rw [if_neg hc]
    refine ⟨fun h => ⟨ho, hen, hm.1 (not_lt.1 hc), ?_⟩, fun h => by rw [h.2.2.2]⟩
    cases h
    rfl

/-- C77: the points of the element itself are accepted, and the element interpolates every function at its points: the values of the
node functionals, times the table, are the values at the points; all dofs belong to the cell. -/
theorem quadrature_element_interpolates (hsd : 1 ≤ sd) (hq : qs ≠ []) (hqs : ∀ q ∈ qs, q.length = sd) (hD : IsCellDim topo cd) :
    (∃ t, (mkQuadratureEl topo cd sd qs).tabulate 0 qs none = .ok [(List.replicate sd 0, t)] ∧
      ∀ (f : List ℝ → ℝ) (der : List ℕ → List ℕ → List ℝ → ℝ), ∃ L : Fin qs.length → Functional ℝ (List ℝ),
        (∀ i : Fin qs.length, (mkQuadratureEl topo cd sd qs).nodes[(i : ℕ)]? = some (L i)) ∧
        ∀ j : Fin qs.length, ∑ i : Fin qs.length, (L i).apply (fun _ x => f x) der * t i j = f qs[j]) ∧
      (mkQuadratureEl topo cd sd qs).nodes.length = qs.length ∧ AllOnCell topo cd (mkQuadratureEl topo cd sd qs).ids qs.length := by
  refine ⟨⟨Matrix.of fun i j => if i = j then 1 else 0, (quadrature_element_tabulate hsd hq hqs hqs 0 none _).2
    ⟨rfl, .inl rfl, ⟨rfl, fun j p q hp hq' i x y hx hy => ?_⟩, rfl⟩, fun f der => ?_⟩, List.length_map .., quad_element_all_on_cell topo cd hD _⟩
  · rw [hp] at hq'
    cases hq'
    rw [hx] at hy
    cases hy
    rw [sub_self, abs_zero]
    positivity
  · refine ⟨fun i => pointEvaluation qs[i], fun i => ?_, fun j => ?_⟩
    · change (qs.map pointEvaluation)[(i : ℕ)]? = _
      rw [List.getElem?_map, List.getElem?_eq_getElem i.2]
      rfl
    · simp only [point_evaluation_apply]
      change ∑ i : Fin qs.length, f qs[i] * (if i = j then (1 : ℝ) else 0) = _
      simp only [mul_ite, mul_one, mul_zero]
      rw [Finset.sum_ite_eq' Finset.univ j, if_pos (Finset.mem_univ _)]

/-- On a cell of dimension zero the check of the points takes the maximum of an empty array: `ValueError` even at the points of the
element. -/
theorem quadrature_element_vertex : (mkQuadratureEl topo cd 0 [[]]).tabulate 0 [[]] none = .error .valueError := by
  unfold QuadratureEl.tabulate
  rw [if_neg (by simp), if_neg (by simp), if_neg (by simp [mkQuadratureEl])]
  rfl

/-! ### `project` -/

section
variable {K P : Type} [Field K] {N m : ℕ}

theorem npMul_zero_sum (a : List K) (n : ℕ) {r : List K} (h : npMul a ((List.replicate n 0).map fun i : ℕ => (i : K)) = some r) : r.sum = 0 := by
  refine List.sum_eq_zero fun x hx => ?_
  have hz : ∀ y ∈ (List.replicate n 0).map fun i : ℕ => (i : K), y = 0 := by
    intro y hy
    obtain ⟨i, hi, rfl⟩ := List.mem_map.1 hy
    rw [List.eq_of_mem_replicate hi, Nat.cast_zero]
  generalize (List.replicate n 0).map (fun i : ℕ => (i : K)) = b at *
  unfold npMul at h
  split_ifs at h with hl
  · cases h
    obtain ⟨j, hj⟩ := List.mem_iff_getElem?.1 hx
    obtain ⟨u, v, -, hv, rfl⟩ := List.getElem?_zipWith_eq_some.1 hj
    rw [hz v (List.mem_of_getElem? hv), mul_zero]
  · split at h
    · cases h
      obtain ⟨y, hy, rfl⟩ := List.mem_map.1 hx
      rw [hz y hy, mul_zero]
    · cases h
      obtain ⟨y, hy, rfl⟩ := List.mem_map.1 hx
      rw [hz _ (List.mem_singleton_self _), mul_zero]
    · cases h

theorem jetKeys_zero (sd : ℕ) : jetKeys sd 0 = [List.replicate sd 0] := by
  simp [jetKeys, mis_zero_right]

theorem project_tab (U : PolySet K P N m Unit) (pts : List P) {tab : Dict (List ℕ) (Fin m → Unit → ℕ → K)} (h : U.tabulate pts 0 = some tab) :
    ∃ v, tab = [(List.replicate U.sd 0, v)] := by
  unfold PolySet.tabulate at h
  rw [jetKeys_zero, List.foldlM_cons] at h
  obtain ⟨r, hr, h⟩ := Option.bind_eq_some_iff.1 h
  have hr' : ∃ v, r = [(List.replicate U.sd 0, v)] := by
    split_ifs at hr with hd
    · cases hr
      exact ⟨_, rfl⟩
    · obtain ⟨D, -, hr⟩ := Option.bind_eq_some_iff.1 hr
      cases hr
      exact ⟨_, rfl⟩
  cases h
  exact hr'

/-- C78: `project` fails or returns the single number zero, whatever the function is. -/
theorem project_result (f : P → K) (U : PolySet K P N m Unit) (pts : List P) (wts : List K) {c : List K}
    (h : projectCoeffs f U pts wts = some c) : c = [0] := by
  obtain ⟨tab, ht, h⟩ := Option.bind_eq_some_iff.1 h
  obtain ⟨v, rfl⟩ := project_tab U pts ht
  rw [List.mapM_cons] at h
  obtain ⟨x, hx, h⟩ := Option.bind_eq_some_iff.1 h
  cases h
  obtain ⟨a, -, hx⟩ := Option.bind_eq_some_iff.1 hx
  obtain ⟨b, hb, rfl⟩ := Option.map_eq_some_iff.1 hx
  rw [npMul_zero_sum a _ hb]
  rfl

/-- Specification: the expansion coefficients of `f` in the members `φ 0, ..., φ (m-1)` of an orthonormal set, the inner products being
computed with the rule with points `pts` and weights `wts`. -/
def discreteProjection {K P : Type} [Field K] (f : P → K) (m : ℕ) (φ : ℕ → P → K) (pts : List P) (wts : List K) : List K :=
  (List.range m).map fun i => ((pts.zip wts).map fun xw => xw.2 * f xw.1 * φ i xw.1).sum

/-- C78: what is left of "`project` computes the expansion coefficients": the result is right exactly if there is one member and the
coefficient is zero. -/
theorem project_partial (f : P → K) (U : PolySet K P N m Unit) (φ : ℕ → P → K) (pts : List P) (wts : List K) {c : List K}
    (h : projectCoeffs f U pts wts = some c) :
    c = discreteProjection f m φ pts wts ↔ m = 1 ∧ ((pts.zip wts).map fun xw => xw.2 * f xw.1 * φ 0 xw.1).sum = 0 := by
  rw [project_result f U pts wts h]
  unfold discreteProjection
  constructor
  · intro h1
    have hl := congrArg List.length h1
    rw [List.length_map, List.length_range] at hl
    have hm : m = 1 := hl.symm
    rw [hm] at h1
    refine ⟨hm, ?_⟩
    simpa using h1.symm
  · rintro ⟨rfl, h1⟩
    simp [h1]

end

/-- The constants on the interval. -/
def constSet : PolySet ℝ (List ℝ) 1 1 Unit := ⟨1, fun _ _ _ => 1, fun _ _ _ => 1, [0]⟩

/-- C78: `project` is wrong for the constant function 1, the constants and the midpoint rule: it returns 0. -/
theorem project_wrong : projectCoeffs (fun _ : List ℝ => (1 : ℝ)) constSet [[1 / 2]] [1] = some [0] ∧
    (∀ tab, constSet.tabulate [[1 / 2]] 0 = some tab → Dict.get? tab [0] = some fun _ _ _ => 1) ∧
    discreteProjection (fun _ : List ℝ => (1 : ℝ)) 1 (fun _ _ => 1) [[1 / 2]] [1] = [1] := by
  have ht : constSet.tabulate [[1 / 2]] 0 = some [([0], fun _ _ _ => 1)] := by
    simp [PolySet.tabulate, jetKeys_zero, constSet, formMatrixProduct, Dict.put]
  refine ⟨?_, fun tab h => ?_, by simp [discreteProjection]⟩
  · unfold projectCoeffs
    rw [ht]
    simp [npMul]
  · rw [ht] at h
    cases h
    rfl

/-! ### Examples -/

example : IsCellDim (ufcTriangle : CellData ℝ).topo (.int 2) ∧ ∃ t, (mkQuadratureEl (ufcTriangle : CellData ℝ).topo (.int 2) 2
    [[1 / 6, 1 / 6], [1 / 6, 2 / 3], [2 / 3, 1 / 6]]).tabulate 0 [[1 / 6, 1 / 6], [1 / 6, 2 / 3], [2 / 3, 1 / 6]] none = .ok [([0, 0], t)] := by
  have hD : IsCellDim (ufcTriangle : CellData ℝ).topo (.int 2) := by
    have h : ∀ p ∈ (ufcTriangle : CellData ℤ).topo, p.1 ≤ .int 2 ∧ ∀ q ∈ p.2, p.1 = .int 2 → q.1 = 0 := by decide +kernel
    refine ⟨⟨[0, 1, 2], _, rfl, rfl⟩, fun e v hv => ?_, fun d hd => ?_⟩
    · obtain ⟨es, m1, m2⟩ := hv.mem
      exact (h _ m1).2 _ m2 rfl
    · obtain ⟨p, hp, rfl⟩ := List.mem_map.1 hd
      exact (h p hp).1
  refine ⟨hD, ?_⟩
  obtain ⟨⟨t, h, -⟩, -⟩ := quadrature_element_interpolates (topo := (ufcTriangle : CellData ℝ).topo) (cd := .int 2) (sd := 2)
    (qs := [[1 / 6, 1 / 6], [1 / 6, 2 / 3], [2 / 3, 1 / 6]]) (by norm_num) (by simp) (by simp) hD
  exact ⟨t, h⟩

end FIAT
