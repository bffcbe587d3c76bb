/-
C70: the whole run of the iteration for the Gauss-Legendre rule with two points, in exact arithmetic.
-/
import Verif.Props.NewtonMono

namespace FIAT

/-- The loop in units of `sqrt 2`, over the rationals. -/
def qDefl (xs : List ℚ) (t : ℚ) : Option ℚ :=
  xs.foldlM (fun (s : ℚ) (xi : ℚ) => if t - xi = 0 then none else some (s + 1 / (t - xi))) 0

def qStep (xs : List ℚ) (t : ℚ) : Option (ℚ × ℚ) :=
  (qDefl xs t).bind fun s =>
    let f := (6 * t ^ 2 - 1) / 2
    let g := 6 * t - f * s
    if g = 0 then none else some (f / g, t - f / g)

def qLoop (xs : List ℚ) : ℕ → ℚ → ℚ → Option (ℚ × ℚ)
  | 0, d, t => some (d, t)
  | n + 1, _, t => (qStep xs t).bind fun p => if 2 * p.1 ^ 2 < 1 / 10 ^ 16 then some p else qLoop xs n p.1 p.2

noncomputable def up (q : ℚ) : ℝ := Real.sqrt 2 * q

theorem up_inj {q q' : ℚ} : up q = up q' ↔ q = q' := by
  unfold up
  constructor
  · intro h
    exact_mod_cast mul_left_cancel₀ (by positivity) h
  · rintro rfl; rfl

theorem sqrt_two_mul_self : Real.sqrt 2 * Real.sqrt 2 = 2 := Real.mul_self_sqrt (by norm_num)

theorem qDefl_spec (xs : List ℚ) (t : ℚ) : deflationSum (xs.map up) (up t) = (qDefl xs t).map fun s : ℚ => (s : ℝ) / Real.sqrt 2 := by
  have main : ∀ (xs : List ℚ) (s : ℚ), (xs.map up).foldlM (fun (s : ℝ) (xi : ℝ) => if up t - xi = 0 then none else some (s + 1 / (up t - xi)))
      ((s : ℝ) / Real.sqrt 2) =
      (xs.foldlM (fun (s : ℚ) (xi : ℚ) => if t - xi = 0 then none else some (s + 1 / (t - xi))) s).map fun s : ℚ => (s : ℝ) / Real.sqrt 2 := by
    intro xs
    induction xs with
    | nil => intro s; simp
    | cons x xs ih =>
      intro s
      rw [List.map_cons, List.foldlM_cons, List.foldlM_cons]
      by_cases hx : t - x = 0
      · rw [if_pos hx, if_pos (by rw [sub_eq_zero] at hx ⊢; rw [hx])]
        rfl
      · have hx' : up t - up x ≠ 0 := by
          rw [sub_ne_zero]
          exact fun h => hx (sub_eq_zero.2 (up_inj.1 h))
        rw [if_neg hx, if_neg hx']
        simp only [Option.bind_eq_bind, Option.bind_some]
        rw [← ih]
        congr 1
        have h1 : ((t : ℝ) - x) ≠ 0 := by exact_mod_cast hx
        unfold up
        push_cast
        rw [← mul_sub]
        field_simp
  unfold deflationSum qDefl
  rw [← main]
  simp

theorem eval_jacobi_two (x : ℝ) : evalJacobi (0 : ℝ) 0 2 x = (3 * x ^ 2 - 1) / 2 ∧ evalJacobiDeriv (0 : ℝ) 0 2 x = 3 * x := by
  constructor
  · simp [evalJacobi, jacobiStep, List.range']
    ring
  · simp [evalJacobiDeriv, evalJacobi]
    ring

theorem qStep_spec (xs : List ℚ) (t : ℚ) : newtonStep 0 0 2 (xs.map up) (up t) = (qStep xs t).map fun p : ℚ × ℚ => (up p.1, up p.2) := by
  unfold newtonStep qStep
  rw [qDefl_spec, (eval_jacobi_two _).1, (eval_jacobi_two _).2]
  rcases qDefl xs t with _ | s
  · rfl
  · simp only [Option.map_some, Option.bind_some]
    have h0 : Real.sqrt 2 ≠ 0 := by positivity
    have hf : (3 * up t ^ 2 - 1) / 2 = (((6 * t ^ 2 - 1) / 2 : ℚ) : ℝ) := by
      unfold up
      push_cast
      rw [mul_pow, Real.sq_sqrt (by norm_num)]
      ring
    have hg : 3 * up t - (3 * up t ^ 2 - 1) / 2 * (s / Real.sqrt 2) = ((6 * t - (6 * t ^ 2 - 1) / 2 * s : ℚ) : ℝ) / Real.sqrt 2 := by
      rw [hf]
      unfold up
      push_cast
      rw [eq_div_iff h0, sub_mul, mul_assoc, mul_assoc _ ((s : ℝ) / Real.sqrt 2), div_mul_cancel₀ _ h0]
      linear_combination 3 * (t : ℝ) * sqrt_two_mul_self
    rw [hg, hf]
    by_cases hc : 6 * t - (6 * t ^ 2 - 1) / 2 * s = 0
    · rw [if_pos hc, if_pos (by rw [hc]; simp)]
      rfl
    · rw [if_neg hc, if_neg (div_ne_zero (by exact_mod_cast hc) h0)]
      simp only [Option.map_some, Option.some.injEq, Prod.mk.injEq]
      have hd : (((6 * t ^ 2 - 1) / 2 : ℚ) : ℝ) / (((6 * t - (6 * t ^ 2 - 1) / 2 * s : ℚ) : ℝ) / Real.sqrt 2) =
          up ((6 * t ^ 2 - 1) / 2 / (6 * t - (6 * t ^ 2 - 1) / 2 * s)) := by
        unfold up
        rw [Rat.cast_div ((6 * t ^ 2 - 1) / 2)]
        rw [div_div_eq_mul_div, mul_comm (Real.sqrt 2)]
        exact (div_mul_eq_mul_div _ _ _).symm
      refine ⟨hd, ?_⟩
      rw [hd]
      unfold up
      rw [Rat.cast_sub t]
      ring

theorem qLoop_spec (xs : List ℚ) (n : ℕ) (d t : ℚ) (d' : ℝ) (hd : 0 < n ∨ d' = up d) :
    newtonLoop 0 0 2 (xs.map up) n d' (up t) = (qLoop xs n d t).map fun p : ℚ × ℚ => (up p.1, up p.2) := by
  induction n generalizing d t d' with
  | zero => simp [newtonLoop, qLoop, hd.resolve_left (lt_irrefl 0)]
  | succ n ih =>
    unfold newtonLoop qLoop
    rw [qStep_spec]
    rcases qStep xs t with _ | p
    · rfl
    · simp only [Option.map_some, Option.bind_some]
      have hc : |up p.1| < newtonEps ↔ 2 * p.1 ^ 2 < 1 / 10 ^ 16 := by
        have h1 : (|up p.1| < newtonEps) ↔ up p.1 ^ 2 < newtonEps ^ 2 := by
          rw [← sq_abs, sq_lt_sq₀ (abs_nonneg _) (by unfold newtonEps; norm_num)]
        rw [h1]
        unfold up newtonEps
        rw [mul_pow, Real.sq_sqrt (by norm_num)]
        rw [show ((1e-8 : ℝ)) ^ 2 = ((1 / 10 ^ 16 : ℚ) : ℝ) by norm_num]
        rw [show (2 : ℝ) * (p.1 : ℝ) ^ 2 = ((2 * p.1 ^ 2 : ℚ) : ℝ) by push_cast; ring]
        exact Rat.cast_lt
      by_cases hp : 2 * p.1 ^ 2 < 1 / 10 ^ 16
      · rw [if_pos hp, if_pos (hc.2 hp)]; rfl
      · rw [if_neg hp, if_neg (fun h => hp (hc.1 h))]
        exact ih _ _ _ (Or.inr rfl)

/-- The two points, in units of `sqrt 2`. -/
def qPoints : Option (List (ℚ × ℚ)) :=
  (qLoop [] 100 0 (-1 / 2)).bind fun p => (qLoop [p.2] 100 0 (1 / 2 * (1 / 2 + p.2))).map fun q => [p, q]

def qCheck : Bool := match qPoints with
  | some [p, q] => decide (2 * p.1 ^ 2 < 1 / 10 ^ 16) && decide (2 * q.1 ^ 2 < 1 / 10 ^ 16) && decide (1 / 2 < q.2 - p.2)
  | _ => false

theorem qCheck_true : qCheck = true := by decide +kernel

theorem guess_two_zero : newtonGuess 2 0 [] = up (-1 / 2) := by
  unfold newtonGuess up
  simp only [lt_irrefl, if_false]
  rw [show (2 * ((0 : ℕ) : ℝ) + 1) * Real.pi / (2 * ((2 : ℕ) : ℝ)) = Real.pi / 4 by push_cast; ring, Real.cos_pi_div_four]
  push_cast
  ring

theorem guess_two_one (x : ℚ) : newtonGuess 2 1 [up x] = up (1 / 2 * (1 / 2 + x)) := by
  unfold newtonGuess up
  simp only [zero_lt_one, if_true]
  rw [show (2 * ((1 : ℕ) : ℝ) + 1) * Real.pi / (2 * ((2 : ℕ) : ℝ)) = Real.pi - Real.pi / 4 by push_cast; ring, Real.cos_pi_sub,
    Real.cos_pi_div_four]
  simp
  ring

theorem points_two : computeGaussJacobiPoints 0 0 2 = qPoints.map fun L => L.map fun p : ℚ × ℚ => (up p.1, up p.2) := by
  unfold computeGaussJacobiPoints qPoints
  have h1 := qLoop_spec [] newtonMaxIter 0 (-1 / 2) (2 * newtonEps) (Or.inl (by unfold newtonMaxIter; omega))
  rw [List.map_nil, ← guess_two_zero] at h1
  rw [show List.range 2 = [0, 1] from rfl, List.foldlM_cons, List.map_nil, h1]
  show _ = Option.map _ ((qLoop [] newtonMaxIter 0 (-1 / 2)).bind fun p => _)
  rcases qLoop [] newtonMaxIter 0 (-1 / 2) with _ | p
  · rfl
  · simp only [Option.map_some, Option.bind_eq_bind, Option.bind_some, List.nil_append]
    have h2 := qLoop_spec [p.2] newtonMaxIter 0 (1 / 2 * (1 / 2 + p.2)) (2 * newtonEps) (Or.inl (by unfold newtonMaxIter; omega))
    rw [← guess_two_one, List.map_cons, List.map_nil] at h2
    rw [List.foldlM_cons]
    simp only [List.map_cons, List.map_nil, h2, List.foldlM_nil]
    show _ = Option.map _ (Option.map _ (qLoop [p.2] newtonMaxIter 0 (1 / 2 * (1 / 2 + p.2))))
    rcases qLoop [p.2] newtonMaxIter 0 (1 / 2 * (1 / 2 + p.2)) with _ | q
    · rfl
    · rfl

/-- The run meets the hypotheses of `gauss_points_near_roots` and `gauss_points_separated`. -/
theorem gauss_points_two : ∃ L, computeGaussJacobiPoints 0 0 2 = some L ∧ (∀ p ∈ L, |p.1| < 1e-8) ∧
    L.Pairwise fun p q => 4 * ((2 : ℕ) : ℝ) ^ 2 * 1e-8 < |p.2 - q.2| := by
  rw [points_two]
  have h := qCheck_true
  unfold qCheck at h
  split at h
  · rename_i p q hpq
    rw [hpq]
    simp only [Bool.and_eq_true, decide_eq_true_eq] at h
    obtain ⟨⟨h1, h2⟩, h3⟩ := h
    have hsmall : ∀ d : ℚ, 2 * d ^ 2 < 1 / 10 ^ 16 → |up d| < 1e-8 := by
      intro d hd
      rw [← sq_lt_sq₀ (abs_nonneg _) (by norm_num), sq_abs]
      unfold up
      rw [mul_pow, Real.sq_sqrt (by norm_num)]
      have : ((2 * d ^ 2 : ℚ) : ℝ) < ((1 / 10 ^ 16 : ℚ) : ℝ) := Rat.cast_lt.2 hd
      push_cast at this
      norm_num at this ⊢
      linarith
    refine ⟨_, rfl, ?_, ?_⟩
    · intro r hr
      simp only [List.map_cons, List.map_nil, List.mem_cons, List.not_mem_nil, or_false] at hr
      rcases hr with rfl | rfl
      · exact hsmall _ h1
      · exact hsmall _ h2
    · simp only [List.map_cons, List.map_nil, List.pairwise_cons, List.mem_singleton, forall_eq, List.not_mem_nil, false_implies,
        implies_true, List.Pairwise.nil, and_true]
      rw [abs_sub_comm]
      refine lt_of_lt_of_le ?_ (le_abs_self _)
      have h4 : ((1 / 2 : ℚ) : ℝ) < ((q.2 - p.2 : ℚ) : ℝ) := Rat.cast_lt.2 h3
      push_cast at h4
      have h5 : (1 : ℝ) ≤ Real.sqrt 2 := Real.one_le_sqrt.2 (by norm_num)
      unfold up
      rw [← mul_sub]
      norm_num
      nlinarith
  · simp at h

/-- So the run returns the two Gauss-Legendre nodes, up to the tolerance. -/
example : ∃ L nodes, computeGaussJacobiPoints 0 0 2 = some L ∧ GaussNodes 0 0 2 nodes ∧
    List.Forall₂ (fun p ξ => |p.2 - ξ| ≤ 8e-8) L nodes := by
  obtain ⟨L, h1, h2, h3⟩ := gauss_points_two
  obtain ⟨nodes, n1, n2⟩ := gauss_points_separated 0 0 2 (L := L) (by simpa using h1) h2 h3
  refine ⟨L, nodes, h1, by simpa using n1, n2.imp fun p ξ h => h.trans (by norm_num)⟩

/-- The hypothesis of `newton_monotone` holds for the first point of every Gauss-Legendre rule; here with three points. -/
example : ∃ ξ p, evalJacobi (0 : ℝ) 0 3 ξ = 0 ∧ newtonLoop 0 0 3 [] newtonMaxIter (2 * newtonEps) (newtonGuess 3 0 []) = some p ∧ p.2 ≤ ξ := by
  obtain ⟨ξ, h1, -, p, h2, h3, -⟩ := gauss_legendre_first_point 3 (by omega)
  exact ⟨ξ, p, h1, h2, h3⟩

end FIAT
