/-
C39: the cache of `entity_support_dofs` is transparent, and a dof is listed iff the integral of the square of
its basis function over the entity exceeds the threshold.
-/
import Verif.Model.Support
import Verif.Lemmas.PyDict
import Verif.Lemmas.ListSum
import Mathlib.Algebra.MvPolynomial.Eval
import Mathlib.Algebra.MvPolynomial.Degrees
import Mathlib.Algebra.BigOperators.Fin
import Mathlib.Algebra.Order.Ring.Rat
import Mathlib.Tactic.NormNum
import Mathlib.Tactic.Linarith

namespace FIAT

section cache
variable {δ R : Type} [DecidableEq δ]

/-- C39: whatever calls are made, in whatever order and with whatever repetitions and failures, every call
returns what a fresh computation would return. -/
theorem support_cache_transparent (fresh : δ → Option R) (hist : List δ) :
    supportRun fresh [] hist = hist.map fresh := by
  have key : ∀ (cache : Dict δ R), (∀ d r, cache.get? d = some r → fresh d = some r) →
      supportRun fresh cache hist = hist.map fresh := by
    induction hist with
    | nil => intro _ _; rfl
    | cons d ds ih =>
      intro cache inv
      have h1 : (supportCall fresh cache d).1 = fresh d := by
        unfold supportCall
        split
        · rename_i r hr; exact (inv d r hr).symm
        · split <;> simp_all
      have h2 : ∀ d' r, (supportCall fresh cache d).2.get? d' = some r → fresh d' = some r := by
        unfold supportCall
        split
        · exact inv
        · split
          · rename_i r hr
            intro d' r' h
            by_cases hd : d' = d
            · subst hd; rw [Dict.get?_put_self] at h; rw [hr, ← h]
            · simp only at h; rw [Dict.get?_put_ne _ _ (Ne.symm hd)] at h; exact inv d' r' h
          · exact inv
      rw [supportRun, List.map_cons, h1, ih _ h2]
  exact key [] (by intro d r h; simp [Dict.get?] at h)

/-- The cached object itself is returned, not a copy: if a caller changes it (`g`), later calls for the same
dimension return the changed value.  (Transparency is about histories of calls only.) -/
theorem support_cache_aliased (fresh : δ → Option R) (g : R → R) (d : δ) (r : R) (h : fresh d = some r) :
    (supportCall fresh ((supportCall fresh [] d).2.put d (g r)) d).1 = some (g r) := by
  unfold supportCall
  simp [Dict.get?, h, Dict.put]

end cache

section integral
variable {K P : Type} [Field K] [LinearOrder K] [IsStrictOrderedRing K] {δ : Type} {n m : ℕ}

/-- `rule` integrates every polynomial in `m` variables of total degree at most `deg` exactly,
`I` being the integral over the reference sub-cell. -/
def RuleExact (rule : List ((Fin m → K) × K)) (I : MvPolynomial (Fin m) K →ₗ[K] K) (deg : ℕ) : Prop :=
  ∀ p : MvPolynomial (Fin m) K, p.totalDegree ≤ deg →
    (rule.map fun qw => MvPolynomial.eval qw.1 p * qw.2).sum = I p

open MvPolynomial in
/-- C39: the result has one entry per entity; dof `j` is listed for entity `f` iff the integral over the
reference sub-cell of the square `|phi_j|^2` of its basis function pulled back by the entity transform is larger than
`eps`.  Hypotheses: the pulled-back components are polynomials of degree at most `deg`, and the rule is
exact to degree `2*deg` (the code asks for `max(2*elem.degree(), 1)`). -/
theorem support_integral (eps : K) (E : SupportView K P (Fin m → K) δ) (d : δ) (deg : ℕ)
    (rule : List ((Fin m → K) × K)) (hq : E.quad d = some rule) (ents : List ℕ) (he : E.entities d = some ents)
    (hs : E.valueShape.length ≤ 1) (I : MvPolynomial (Fin m) K →ₗ[K] K) (hI : RuleExact rule I (2 * deg))
    (phi : ℕ → ℕ → ℕ → MvPolynomial (Fin m) K)
    (hphi : ∀ f ∈ ents, ∀ j c, (phi f j c).totalDegree ≤ deg ∧
      ∀ x, eval x (phi f j c) = E.val j c (E.transform d f x)) :
    ∃ res, supportFresh eps E d = some res ∧ res.map Prod.fst = ents ∧
      ∀ f l, (f, l) ∈ res → l.Pairwise (· < ·) ∧
        ∀ j, j ∈ l ↔ j < E.ndofs ∧ eps < I (∑ c ∈ Finset.range (E.valueShape.headD 1), phi f j c ^ 2) := by
  refine ⟨_, by simp only [supportFresh, hq, he, Option.bind_eq_bind, Option.bind_some]; rw [if_neg (by omega)],
    by simp [Function.comp_def], ?_⟩
  intro f l hl
  obtain ⟨f', hf', heq⟩ := List.mem_map.1 hl
  obtain ⟨rfl, rfl⟩ := Prod.mk.inj heq
  refine ⟨List.Pairwise.filter _ List.pairwise_lt_range, fun j => ?_⟩
  rw [List.mem_filter, List.mem_range, decide_eq_true_eq]
  have : supportInt E d f' rule j = I (∑ c ∈ Finset.range (E.valueShape.headD 1), phi f' j c ^ 2) := by
    rw [← hI]
    · unfold supportInt
      congr 1
      refine List.map_congr_left fun qw _ => ?_
      congr 1
      rw [map_sum, list_sum_range]
      exact Finset.sum_congr rfl fun c _ => by rw [map_pow, (hphi f' hf' j c).2]
    · refine (totalDegree_finset_sum _ _).trans (Finset.sup_le fun c _ => ?_)
      exact (totalDegree_pow _ _).trans (Nat.mul_le_mul_left 2 (hphi f' hf' j c).1)
  rw [this]

/-- The interval with its P1 basis `1 - x`, `x`, asked for the support on its vertices. -/
def p1View : SupportView ℚ (Fin 1 → ℚ) (Fin 0 → ℚ) ℕ where
  valueShape := []
  ndofs := 2
  entities d := if d = 0 then some [0, 1] else none
  quad d := if d = 0 then some [(![], 1)] else none
  transform _ f _ := ![(f : ℚ)]
  val j _ x := if j = 0 then 1 - x 0 else x 0

/-! Non-vacuity: on vertex `f` of the interval, exactly the dof `f` is supported; the hypotheses of
`support_integral` are met (degree 0, `I` evaluation at the point). -/
example : supportFresh (1 / 10 ^ 8) p1View 0 = some [(0, [0]), (1, [1])] := by
  have : ∀ f j : ℕ, supportInt p1View 0 f [(![], 1)] j = (if j = 0 then 1 - (f : ℚ) else f) ^ 2 := by
    intro f j
    simp [supportInt, p1View]
  simp only [supportFresh, p1View, if_true, Option.bind_eq_bind, Option.bind_some]
  have h := fun f j => this f j
  simp only [p1View] at h
  have e1 : decide ((1 : ℚ) / 10 ^ 8 < 1) = true := by norm_num
  have e0 : decide ((1 : ℚ) / 10 ^ 8 < 0) = false := by norm_num
  simp [h, List.range_succ, List.filter, e1, e0, -one_div]

open MvPolynomial in
example : ∃ I : MvPolynomial (Fin 0) ℚ →ₗ[ℚ] ℚ, RuleExact [(![], 1)] I (2 * 0) ∧
    ∀ f ∈ ([0, 1] : List ℕ), ∀ j c : ℕ, (C (if j = 0 then 1 - (f : ℚ) else f) : MvPolynomial (Fin 0) ℚ).totalDegree ≤ 0 ∧
      ∀ x, eval x (C (if j = 0 then 1 - (f : ℚ) else f)) = p1View.val j c (p1View.transform 0 f x) := by
  refine ⟨(aeval ![]).toLinearMap, ?_, ?_⟩
  · intro p _
    simp [aeval_def, eval₂_eq_eval_map, MvPolynomial.map_id]
  · intro f _ j c
    refine ⟨by simp, fun x => ?_⟩
    simp [p1View]

end integral

end FIAT
