/-
Helper lemmas for C83: corresponding basis functions of the serendipity elements on two entities of the reference cell.
-/
import Verif.Props.Serendipity
import Verif.Props.QLagrange

namespace FIAT
open MvPolynomial

variable {D : ℕ}

theorem serIdx_perm (r : ℕ) (σ : Equiv.Perm (Fin D)) (ord : List (Fin D)) :
    serIdx r (ord.map σ) = (serIdx r ord).map fun a => a ∘ σ.symm := by
  have hs : ∀ (c : Fin D) (j : ℕ), (Pi.single (σ c) j : Fin D → ℕ) = (Pi.single c j : Fin D → ℕ) ∘ σ.symm := by
    intro c j
    funext i
    simp only [Function.comp, Pi.single_apply, Equiv.symm_apply_eq]
  match ord with
  | [] => rfl
  | [c] => simp only [List.map_cons, List.map_nil, serIdx, List.map_map, hs]; rfl
  | [c, c'] => simp only [List.map_cons, List.map_nil, serIdx, List.map_flatMap, List.map_map, hs]; rfl
  | [c, c', c''] => simp only [List.map_cons, List.map_nil, serIdx, List.map_flatMap, List.map_map, hs]; rfl
  | _ :: _ :: _ :: _ :: _ => rfl

/-- For degree at most 4 the order of two free directions does not matter. -/
theorem serIdx_low {r : ℕ} (hr : r ≤ 4) {o o' : List (Fin D)} (h : o.length = 2) (h' : o'.length = 2) : serIdx r o = serIdx r o' := by
  obtain ⟨a, b, rfl⟩ := List.length_eq_two.1 h
  obtain ⟨a', b', rfl⟩ := List.length_eq_two.1 h'
  unfold serIdx
  rcases Nat.lt_or_ge r 4 with h4 | h4
  · rw [show r - 3 = 0 by omega]; rfl
  · obtain rfl : r = 4 := by omega
    change [(Pi.single a 0 + Pi.single b 0 : Fin D → ℕ)] = [Pi.single a' 0 + Pi.single b' 0]
    simp only [Pi.single_zero]

theorem eval_serFactor_none (j : ℕ) (i i' : Fin D) (x y : Fin D → ℝ) (h : y i' = x i) :
    eval y (serFactor none j i') = eval x (serFactor none j i) := by
  have hl : ∀ (z : Fin D → ℝ) (c : Fin D), eval z (serLeg j (2 * X c - 1)) = (jacobiPoly (0 : ℝ) 0 j).eval (2 * z c - 1) := by
    intro z c
    unfold serLeg
    rw [Polynomial.aeval_def, Polynomial.hom_eval₂]
    have : (eval z).comp (algebraMap ℝ (MvPolynomial (Fin D) ℝ)) = RingHom.id ℝ := by
      ext r; simp
    have hz : eval z (2 * X c - 1) = 2 * z c - 1 := by simp
    rw [this, hz]
    rfl
  simp only [serFactor, map_mul, hl, map_sub, map_one, eval_X, h]

theorem eval_serLam (b : Bool) (i : Fin D) (x : Fin D → ℝ) (h : x i = serBit b) (j : ℕ) : eval x (serFactor (some b) j i) = 1 := by
  cases b <;> simp [serFactor, serLam, h, serBit]

/-- Specification: the permutation `σ` of the directions makes the entity `t` of the cell correspond to the entity `t'`, and the basis
functions of the sub-entities of `t` to those of the sub-entities of `t'`. -/
structure SerMatch (topo : Topology Key) (L : List (Key × ℕ)) (es : List (SerEnt D)) (bit : ℕ → Fin D → Bool) (low : Prop)
    (d : Key) (e e' : ℕ) (t t' : List ℕ) (σ : Equiv.Perm (Fin D)) : Prop where
  free : ∀ i, (entOf L es (d, e)).1 i = none → ∀ a ∈ t, bit (translate t t' a) (σ i) = bit a i
  fixed : ∀ i b, (entOf L es (d, e)).1 i = some b → (∀ a ∈ t, bit a i = b) ∧
    ∃ b', (entOf L es (d, e')).1 (σ i) = some b' ∧ ∀ a ∈ t', bit a (σ i) = b'
  sub : ∀ p ∈ allEntities topo, p.2 ⊆ t → ∀ p' ∈ allEntities topo, p'.1.1 = p.1.1 → p'.2 = p.2.map (translate t t') →
    (∀ i, (entOf L es (d, e)).1 i = none → (entOf L es p'.1).1 (σ i) = (entOf L es p.1).1 i) ∧
    (∀ i, (entOf L es (d, e)).1 i ≠ none → (entOf L es p.1).1 i = (entOf L es (d, e)).1 i ∧
      (entOf L es p'.1).1 (σ i) = (entOf L es (d, e')).1 (σ i)) ∧
    ((entOf L es p'.1).2 = (entOf L es p.1).2.map σ ∨ low ∧ (entOf L es p.1).2.length = 2 ∧ (entOf L es p'.1).2.length = 2)

/-- A computable version. -/
def serMatchB (topo : Topology Key) (L : List (Key × ℕ)) (es : List (SerEnt D)) (bit : ℕ → Fin D → Bool) (low : Bool)
    (d : Key) (e e' : ℕ) (t t' : List ℕ) (σ : Equiv.Perm (Fin D)) : Bool :=
  ((List.finRange D).all fun i => match (entOf L es (d, e)).1 i with
    | none => t.all fun a => bit (translate t t' a) (σ i) == bit a i
    | some b => (t.all fun a => bit a i == b) && match (entOf L es (d, e')).1 (σ i) with
      | none => false
      | some b' => t'.all fun a => bit a (σ i) == b') &&
  (allEntities topo).all fun p => !(p.2.all fun a => t.contains a) || (allEntities topo).all fun p' =>
    !(p'.1.1 == p.1.1) || !(p'.2 == p.2.map (translate t t')) ||
    ((List.finRange D).all fun i => match (entOf L es (d, e)).1 i with
      | none => (entOf L es p'.1).1 (σ i) == (entOf L es p.1).1 i
      | some b => (entOf L es p.1).1 i == some b && (entOf L es p'.1).1 (σ i) == (entOf L es (d, e')).1 (σ i)) &&
    ((entOf L es p'.1).2 == (entOf L es p.1).2.map σ ||
      (low && (entOf L es p.1).2.length == 2 && (entOf L es p'.1).2.length == 2))

theorem serMatch_of_check {topo : Topology Key} {L : List (Key × ℕ)} {es : List (SerEnt D)} {bit : ℕ → Fin D → Bool} {low : Prop}
    {lowB : Bool} (hlow : lowB = true → low) {d : Key} {e e' : ℕ} {t t' : List ℕ} {σ : Equiv.Perm (Fin D)}
    (h : serMatchB topo L es bit lowB d e e' t t' σ = true) : SerMatch topo L es bit low d e e' t t' σ := by
  unfold serMatchB at h
  rw [Bool.and_eq_true] at h
  obtain ⟨h1, h2⟩ := h
  rw [List.all_eq_true] at h1 h2
  refine ⟨fun i hi a ha => ?_, fun i b hi => ?_, fun p hp hpt p' hp' hd hv => ?_⟩
  · have := h1 i (List.mem_finRange i)
    simp only [hi, List.all_eq_true, beq_iff_eq] at this
    exact this a ha
  · have := h1 i (List.mem_finRange i)
    simp only [hi, Bool.and_eq_true, List.all_eq_true, beq_iff_eq] at this
    refine ⟨this.1, ?_⟩
    have h3 := this.2
    cases hc : (entOf L es (d, e')).1 (σ i) with
    | none => simp [hc] at h3
    | some b' => simp only [hc, List.all_eq_true, beq_iff_eq] at h3; exact ⟨b', rfl, h3⟩
  · have h3 := h2 p hp
    rw [Bool.or_eq_true] at h3
    rcases h3 with h3 | h3
    · exfalso
      have : (p.2.all fun a => t.contains a) = true := by
        rw [List.all_eq_true]; intro a ha; rw [List.contains_iff_mem]; exact hpt ha
      rw [this] at h3
      exact absurd h3 (by decide)
    · rw [List.all_eq_true] at h3
      have h4 := h3 p' hp'
      rw [hd, hv] at h4
      simp only [beq_self_eq_true, Bool.not_true, Bool.false_or, Bool.and_eq_true, Bool.or_eq_true, beq_iff_eq, List.all_eq_true] at h4
      obtain ⟨h5, h6⟩ := h4
      refine ⟨fun i hi => ?_, fun i hi => ?_, ?_⟩
      · have := h5 i (List.mem_finRange i)
        simp only [hi, beq_iff_eq] at this
        exact this
      · have := h5 i (List.mem_finRange i)
        cases hc : (entOf L es (d, e)).1 i with
        | none => exact absurd hc hi
        | some b => simp only [hc, Bool.and_eq_true, beq_iff_eq] at this; exact this
      · rcases h6 with h6 | h6
        · exact Or.inl h6
        · exact Or.inr ⟨hlow h6.1.1, h6.1.2, h6.2⟩

/-- The permutations of two and of three directions. -/
def perms2 : List (Equiv.Perm (Fin 2)) := [1, Equiv.swap 0 1]
def perms3 : List (Equiv.Perm (Fin 3)) :=
  [1, Equiv.swap 0 1, Equiv.swap 0 2, Equiv.swap 1 2, Equiv.swap 0 1 * Equiv.swap 1 2, Equiv.swap 1 2 * Equiv.swap 0 1]

/-- All pairs of entities correspond. -/
def allMatchB (topo : Topology Key) (L : List (Key × ℕ)) (es : List (SerEnt D)) (bit : ℕ → Fin D → Bool) (low : Bool)
    (perms : List (Equiv.Perm (Fin D))) (cond : Key → ℕ → ℕ → Bool) : Bool :=
  (allEntities topo).all fun p => (allEntities topo).all fun p' => !(p'.1.1 == p.1.1) || !(cond p.1.1 p.1.2 p'.1.2) ||
    perms.any fun σ => serMatchB topo L es bit low p.1.1 p.1.2 p'.1.2 p.2 p'.2 σ

theorem match_of_all {topo : Topology Key} {L : List (Key × ℕ)} {es : List (SerEnt D)} {bit : ℕ → Fin D → Bool} {low : Prop}
    {lowB : Bool} (hlow : lowB = true → low) {perms : List (Equiv.Perm (Fin D))} {cond : Key → ℕ → ℕ → Bool}
    (h : allMatchB topo L es bit lowB perms cond = true) {d : Key} {e e' : ℕ} {t t' : List ℕ} (he : HasEntity topo d e t)
    (he' : HasEntity topo d e' t') (hc : cond d e e' = true) : ∃ σ, SerMatch topo L es bit low d e e' t t' σ := by
  unfold allMatchB at h
  rw [List.all_eq_true] at h
  have h1 := h _ (mem_allEntities he)
  rw [List.all_eq_true] at h1
  have h2 := h1 _ (mem_allEntities he')
  simp only [beq_self_eq_true, Bool.not_true, Bool.false_or, hc, List.any_eq_true] at h2
  obtain ⟨σ, -, h3⟩ := h2
  exact ⟨σ, serMatch_of_check hlow h3⟩

/-- Two faces of the hexahedron of which both or none is perpendicular to the second direction. -/
def sameTurn (e e' : ℕ) : Bool := ((e == 2 || e == 3) == (e' == 2 || e' == 3))

theorem quad_matches : allMatchB (ufcQuadrilateral : CellData ℝ).topo quadList quadEnts quadBit false perms2 (fun _ _ _ => true) = true := by
  have h : (ufcQuadrilateral : CellData ℝ).topo = (ufcQuadrilateral : CellData ℤ).topo := rfl
  rw [h]
  decide +kernel

theorem hex_matches_low : allMatchB (ufcHexahedron : CellData ℝ).topo hexList hexEnts hexBit true perms3 (fun _ _ _ => true) = true := by
  have h : (ufcHexahedron : CellData ℝ).topo = (ufcHexahedron : CellData ℤ).topo := rfl
  rw [h]
  decide +kernel

theorem hex_matches : allMatchB (ufcHexahedron : CellData ℝ).topo hexList hexEnts hexBit false perms3
    (fun d e e' => !(d == .int 2) || sameTurn e e') = true := by
  have h : (ufcHexahedron : CellData ℝ).topo = (ufcHexahedron : CellData ℤ).topo := rfl
  rw [h]
  decide +kernel

/-- The names of the entities are determined by their vertices. -/
theorem quad_names : ∀ p ∈ allEntities (ufcQuadrilateral : CellData ℝ).topo, ∀ p' ∈ allEntities (ufcQuadrilateral : CellData ℝ).topo,
    p'.2 = p.2 → p' = p := by
  have h : (ufcQuadrilateral : CellData ℝ).topo = (ufcQuadrilateral : CellData ℤ).topo := rfl
  rw [h]
  decide +kernel

theorem hex_names : ∀ p ∈ allEntities (ufcHexahedron : CellData ℝ).topo, ∀ p' ∈ allEntities (ufcHexahedron : CellData ℝ).topo,
    p'.2 = p.2 → p' = p := by
  have h : (ufcHexahedron : CellData ℝ).topo = (ufcHexahedron : CellData ℤ).topo := rfl
  rw [h]
  decide +kernel

end FIAT
