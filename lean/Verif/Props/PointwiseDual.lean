/-
C41: the pointwise dual is exact on the space, up to the dropped coefficients.
-/
import Verif.Model.PointwiseDual
import Verif.Props.Functional
import Verif.Lemmas.PyDict
import Mathlib.Algebra.Order.BigOperators.Group.Finset
import Mathlib.Algebra.Order.Field.Basic
import Mathlib.Tactic.NormNum
import Mathlib.Logic.Equiv.Fin.Basic

namespace FIAT

section
variable {K P : Type} [Field K] [DecidableEq P]

private theorem dictSum_appendAt {α : Type} (f : P → α → K) (d : Dict P (List α)) (x : P) (v : List α) :
    ((Dict.appendAt d x v).map fun xw => (xw.2.map fun b => f xw.1 b).sum).sum =
      (d.map fun xw => (xw.2.map fun b => f xw.1 b).sum).sum + (v.map fun b => f x b).sum := by
  unfold Dict.appendAt
  have : ∀ (d : Dict P (List α)), ∀ w, ((Dict.put d x w).map fun xw => (xw.2.map fun b => f xw.1 b).sum).sum +
      (((Dict.get? d x).getD []).map fun b => f x b).sum =
      (d.map fun xw => (xw.2.map fun b => f xw.1 b).sum).sum + (w.map fun b => f x b).sum := by
    intro d w
    induction d with
    | nil => simp [Dict.put]
    | cons p d ih =>
      obtain ⟨k, u⟩ := p
      by_cases h : k = x
      · subst h
        simp only [Dict.put, if_true, List.map_cons, List.sum_cons, Dict.get?_cons, Option.getD_some]
        ring
      · simp only [Dict.put, if_neg h, List.map_cons, List.sum_cons, Dict.get?_cons]
        rw [add_assoc, ih]; ring
  have h := this d ((Dict.get? d x).getD [] ++ v)
  rw [List.map_append, List.sum_append] at h
  have h2 := add_right_cancel (b := (((Dict.get? d x).getD []).map fun b => f x b).sum)
    (h.trans (by rw [add_comm ((List.map (fun b => f x b) ((Dict.get? d x).getD [])).sum), ← add_assoc]))
  exact h2

private theorem zipIdx_sum {α : Type} (L : List α) (g : α → ℕ → K) (s : ℕ) :
    ((L.zipIdx s).map fun x => g x.1 x.2).sum =
      ∑ i : Fin L.length, g (L.get i) (s + i) := by
  induction L generalizing s with
  | nil => simp
  | cons a L ih =>
    rw [List.zipIdx_cons, List.map_cons, List.sum_cons, ih]
    simp only [List.length_cons]
    rw [Fin.sum_univ_succ]
    simp only [List.get_cons_zero, Fin.val_zero, Nat.add_zero, List.get_cons_succ, Fin.val_succ]
    congr 1
    refine Finset.sum_congr rfl fun i _ => ?_
    congr 1; omega

/-- The functional is the sum of the kept coefficients times the component values. -/
theorem pointwise_node_apply (keep : K → Bool) (comps : List (List ℕ)) (pts : List P) (coeff : ℕ → ℕ → K)
    (val : List ℕ → P → K) (der : List ℕ → List ℕ → P → K) :
    (pointwiseNode keep comps pts coeff).apply val der =
      ∑ c : Fin comps.length, ∑ p : Fin pts.length,
        if keep (coeff c p) then coeff c p * val (comps.get c) (pts.get p) else 0 := by
  unfold pointwiseNode Functional.apply
  simp only [List.map_nil, List.sum_nil, add_zero]
  have inner : ∀ (c : List ℕ) (j : ℕ) (L : List (P × ℕ)) (d : Dict P (List (K × List ℕ))),
      ((L.foldl (fun d xp =>
        if keep (coeff j xp.2) then Dict.appendAt d xp.1 [(coeff j xp.2, c)] else d) d).map
          fun xw => (xw.2.map fun wc => wc.1 * val wc.2 xw.1).sum).sum =
      (d.map fun xw => (xw.2.map fun wc => wc.1 * val wc.2 xw.1).sum).sum +
        (L.map fun xp => if keep (coeff j xp.2) then coeff j xp.2 * val c xp.1 else 0).sum := by
    intro c j L
    induction L with
    | nil => simp
    | cons a L ih =>
      intro d
      rw [List.foldl_cons, ih, List.map_cons, List.sum_cons, ← add_assoc]
      congr 1
      by_cases h : keep (coeff j a.2)
      · rw [if_pos h, if_pos h, dictSum_appendAt (fun x (wc : K × List ℕ) => wc.1 * val wc.2 x)]
        simp
      · rw [if_neg h, if_neg h, add_zero]
  have outer : ∀ (L : List (List ℕ × ℕ)) (d : Dict P (List (K × List ℕ))),
      ((L.foldl (fun d cj => pts.zipIdx.foldl (fun d xp =>
        if keep (coeff cj.2 xp.2) then Dict.appendAt d xp.1 [(coeff cj.2 xp.2, cj.1)] else d) d) d).map
          fun xw => (xw.2.map fun wc => wc.1 * val wc.2 xw.1).sum).sum =
      (d.map fun xw => (xw.2.map fun wc => wc.1 * val wc.2 xw.1).sum).sum +
        (L.map fun cj => (pts.zipIdx.map fun xp =>
          if keep (coeff cj.2 xp.2) then coeff cj.2 xp.2 * val cj.1 xp.1 else 0).sum).sum := by
    intro L
    induction L with
    | nil => simp
    | cons a L ih =>
      intro d
      rw [List.foldl_cons, ih, inner, List.map_cons, List.sum_cons, ← add_assoc]
  rw [outer]
  simp only [List.map_nil, List.sum_nil, zero_add]
  rw [zipIdx_sum comps (fun c j => (pts.zipIdx.map fun xp =>
          if keep (coeff j xp.2) then coeff j xp.2 * val c xp.1 else 0).sum) 0]
  refine Finset.sum_congr rfl fun c _ => ?_
  rw [zipIdx_sum pts (fun x p => if keep (coeff (0 + (c : ℕ)) p) then coeff (0 + (c : ℕ)) p *
    val (comps.get c) x else 0) 0]
  refine Finset.sum_congr rfl fun p _ => ?_
  simp only [Nat.zero_add]

/-- Summation over the flattened (component, point) index. -/
private theorem sum_flat (m n N : ℕ) (h : m * n = N) (g : ℕ → ℕ → K) :
    ∑ c : Fin m, ∑ p : Fin n, g c p = ∑ q : Fin N, g (q / n) (q % n) := by
  subst h
  rw [← Fintype.sum_prod_type' (f := fun (c : Fin m) (p : Fin n) => g c p),
    ← (finProdFinEquiv (m := m) (n := n)).sum_comp]
  refine Finset.sum_congr rfl fun x _ => ?_
  have hn : 0 < n := lt_of_le_of_lt (Nat.zero_le _) x.2.2
  have e : ((finProdFinEquiv x : Fin (m * n)) : ℕ) = x.2 + n * x.1 := rfl
  rw [e, Nat.add_mul_div_left _ _ hn, Nat.div_eq_of_lt x.2.2, Nat.zero_add, Nat.add_mul_mod_self_left,
    Nat.mod_eq_of_lt x.2.2]

/-- C41: with `phi j` the (components of the) basis functions and `V` their table, node `i` of the pointwise
dual applied to basis function `j` is `delta_ij` minus the contribution of the dropped coefficients;
`coeff` are the entries of the inverse matrix. -/
theorem pointwise_dual_spec (keep : K → Bool) (nbf : ℕ) (comps : List (List ℕ)) (pts : List P)
    (V : ℕ → ℕ → ℕ → K) (phi : ℕ → List ℕ → P → K)
    (hV : ∀ (j : ℕ) (c : Fin comps.length) (p : Fin pts.length),
      V j c p = phi j (comps.get c) (pts.get p))
    (nodes : List (Functional K P)) (h : pointwiseDual keep nbf comps pts V = some nodes) :
    nodes.length = nbf ∧ ∀ (i : ℕ) l, nodes[i]? = some l → ∃ coeff : Fin comps.length → Fin pts.length → K,
      ∀ j < nbf, ∀ der, l.apply (phi j) der = (if i = j then 1 else 0) -
        ∑ c, ∑ p, if keep (coeff c p) then 0 else coeff c p * phi j (comps.get c) (pts.get p) := by
  unfold pointwiseDual at h
  split at h
  case isFalse => exact absurd h (by simp)
  case isTrue hlen =>
  simp only at h
  split at h
  case isFalse => exact absurd h (by simp)
  case isTrue hu =>
  rw [Option.some.injEq] at h
  subst h
  refine ⟨by simp, fun i l hl => ?_⟩
  have hi : i < nbf := by
    obtain ⟨h, _⟩ := List.getElem?_eq_some_iff.1 hl
    simpa using h
  rw [List.getElem?_map, List.getElem?_eq_getElem (by simpa using hi), List.getElem_finRange,
    Option.map_some, Option.some.injEq] at hl
  subst hl
  set A : Matrix (Fin nbf) (Fin nbf) K := Matrix.of fun cp j => V j (cp / pts.length) (cp % pts.length) with hA
  set co : ℕ → ℕ → K := fun c p => if hcp : c * pts.length + p < nbf then
    A⁻¹ ⟨i, hi⟩ ⟨c * pts.length + p, hcp⟩ else 0 with hco
  refine ⟨fun c p => co c p, fun j hj der => ?_⟩
  have e0 : (pointwiseNode keep comps pts fun c p =>
      if hcp : c * pts.length + p < nbf then
        A⁻¹ (Fin.cast (by simp) (⟨i, by simpa using hi⟩ : Fin (List.finRange nbf).length)) ⟨c * pts.length + p, hcp⟩
      else 0) = pointwiseNode keep comps pts co := rfl
  rw [e0, pointwise_node_apply, eq_sub_iff_add_eq, ← Finset.sum_add_distrib]
  have e1 : ∀ (c : Fin comps.length) (p : Fin pts.length),
      (if keep (co c p) then co c p * phi j (comps.get c) (pts.get p) else 0) +
      (if keep (co c p) then 0 else co c p * phi j (comps.get c) (pts.get p)) = co c p * V j c p := by
    intro c p
    rw [hV]
    by_cases hk : keep (co c p) <;> simp [hk]
  simp only [← Finset.sum_add_distrib, e1]
  rw [sum_flat comps.length pts.length nbf hlen (fun c p => co c p * V j c p)]
  have h1 := congrFun (congrFun (Matrix.nonsing_inv_mul _ hu) ⟨i, hi⟩) ⟨j, hj⟩
  rw [Matrix.mul_apply, Matrix.one_apply] at h1
  simp only [Fin.mk.injEq] at h1
  rw [← h1]
  refine Finset.sum_congr rfl fun q _ => ?_
  have hq : (q : ℕ) / pts.length * pts.length + q % pts.length = q := by
    rw [mul_comm]; exact Nat.div_add_mod _ _
  rw [hco]
  simp only [hq]
  rw [dif_pos q.2]
  rfl

/-- C41: with nothing dropped (only zero coefficients are), the nodes are exactly dual to the basis. -/
theorem pointwise_dual_exact [DecidableEq K] (nbf : ℕ) (comps : List (List ℕ)) (pts : List P)
    (V : ℕ → ℕ → ℕ → K) (phi : ℕ → List ℕ → P → K)
    (hV : ∀ (j : ℕ) (c : Fin comps.length) (p : Fin pts.length),
      V j c p = phi j (comps.get c) (pts.get p))
    (nodes : List (Functional K P))
    (h : pointwiseDual (fun x => decide (x ≠ 0)) nbf comps pts V = some nodes) (i : ℕ) (l : Functional K P)
    (hl : nodes[i]? = some l) (j : ℕ) (hj : j < nbf) (der : List ℕ → List ℕ → P → K) :
    l.apply (phi j) der = if i = j then 1 else 0 := by
  obtain ⟨_, h2⟩ := pointwise_dual_spec _ nbf comps pts V phi hV nodes h
  obtain ⟨co, h3⟩ := h2 i l hl
  rw [h3 j hj der, sub_eq_self]
  refine Finset.sum_eq_zero fun c _ => Finset.sum_eq_zero fun p _ => ?_
  by_cases hc : co c p = 0
  · simp [hc]
  · simp [hc]

/-- C41: unisolvent points (invertible matrix) are accepted, and only those. -/
theorem pointwise_dual_some_iff (keep : K → Bool) (nbf : ℕ) (comps : List (List ℕ)) (pts : List P)
    (V : ℕ → ℕ → ℕ → K) :
    (∃ nodes, pointwiseDual keep nbf comps pts V = some nodes) ↔
      comps.length * pts.length = nbf ∧
      (Matrix.of fun (cp j : Fin nbf) => V j (cp / pts.length) (cp % pts.length)).det ≠ 0 := by
  unfold pointwiseDual
  by_cases h : comps.length * pts.length = nbf
  · rw [dif_pos h]
    simp only [h, true_and]
    by_cases hu : IsUnit (Matrix.of fun (cp j : Fin nbf) => V j (cp / pts.length) (cp % pts.length)).det
    · rw [if_pos hu]
      exact ⟨fun _ => hu.ne_zero, fun _ => ⟨_, rfl⟩⟩
    · rw [if_neg hu]
      exact ⟨fun ⟨_, h⟩ => absurd h (by simp), fun h => absurd (isUnit_iff_ne_zero.2 h) hu⟩
  · rw [dif_neg h]
    exact ⟨fun ⟨_, h⟩ => absurd h (by simp), fun h2 => absurd h2.1 h⟩

end

section ordered
variable {K P : Type} [Field K] [LinearOrder K] [IsStrictOrderedRing K] [DecidableEq P]

/-- C41: with the code's cut-off `tol` (`1e-12`), the error is at most `tol` times the sum of the
absolute values of the basis function at the points. -/
theorem pointwise_dual_tol (tol : K) (htol : 0 ≤ tol) (nbf : ℕ) (comps : List (List ℕ)) (pts : List P)
    (V : ℕ → ℕ → ℕ → K) (phi : ℕ → List ℕ → P → K)
    (hV : ∀ (j : ℕ) (c : Fin comps.length) (p : Fin pts.length),
      V j c p = phi j (comps.get c) (pts.get p))
    (nodes : List (Functional K P))
    (h : pointwiseDual (fun x => decide (|x| > tol)) nbf comps pts V = some nodes) (i : ℕ)
    (l : Functional K P) (hl : nodes[i]? = some l) (j : ℕ) (hj : j < nbf) (der : List ℕ → List ℕ → P → K) :
    |l.apply (phi j) der - (if i = j then 1 else 0)| ≤
      tol * ∑ c : Fin comps.length, ∑ p : Fin pts.length, |phi j (comps.get c) (pts.get p)| := by
  obtain ⟨_, h2⟩ := pointwise_dual_spec _ nbf comps pts V phi hV nodes h
  obtain ⟨co, h3⟩ := h2 i l hl
  rw [h3 j hj der, sub_sub_cancel_left, abs_neg, Finset.mul_sum]
  refine (Finset.abs_sum_le_sum_abs _ _).trans (Finset.sum_le_sum fun c _ => ?_)
  rw [Finset.mul_sum]
  refine (Finset.abs_sum_le_sum_abs _ _).trans (Finset.sum_le_sum fun p _ => ?_)
  by_cases hc : |co c p| > tol
  · rw [if_pos (by simpa using hc), abs_zero]
    exact mul_nonneg htol (abs_nonneg _)
  · rw [if_neg (by simpa using hc), abs_mul]
    exact mul_le_mul_of_nonneg_right (not_lt.1 hc) (abs_nonneg _)

/-- Non-vacuity: basis `1, x` at the points 0 and 1. -/
example : ∃ nodes, pointwiseDual (fun x : ℚ => decide (x ≠ 0)) 2 [[]] [(0 : ℚ), 1]
    (fun j _ p => if j = 0 then 1 else if p = 0 then 0 else 1) = some nodes := by
  rw [pointwise_dual_some_iff]
  refine ⟨rfl, ?_⟩
  rw [Matrix.det_fin_two]
  norm_num [Matrix.of_apply]

end ordered
end FIAT
