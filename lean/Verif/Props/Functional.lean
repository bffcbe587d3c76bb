/-
C19: `to_riesz` represents the functional, for a single functional and for a whole dual set.
-/
import Verif.Lemmas.Functional
import Mathlib.Algebra.BigOperators.Ring.Finset
import Mathlib.Algebra.BigOperators.Pi
import Mathlib.Algebra.BigOperators.Group.Finset.Sigma
import Mathlib.Tactic.Ring
import Mathlib.Data.Rat.Defs

namespace FIAT

variable {K P : Type} [Field K] [DecidableEq P]

/-- Specification (functional.py:49-60): the value of the functional on a field whose component `c` has
value `val c x` at `x` and derivative `der alpha c x`. -/
def Functional.apply (l : Functional K P) (val : List ℕ → P → K) (der : List ℕ → List ℕ → P → K) : K :=
  (l.pt.map fun xw => (xw.2.map fun wc => wc.1 * val wc.2 xw.1).sum).sum +
  (l.deriv.map fun xw => (xw.2.map fun wac => wac.1 * der wac.2.1 wac.2.2 xw.1).sum).sum

/-- The two dictionaries have distinct keys, and multi-indices have one entry per spatial direction. -/
structure Functional.WF (l : Functional K P) (D : ℕ) : Prop where
  pt : Dict.WF l.pt
  deriv : Dict.WF l.deriv
  len : ∀ xw ∈ l.deriv, ∀ wac ∈ xw.2, wac.2.1.length = D

/-- Specification of the tables of the expansion set: `phi i x` is expansion function `i` at `x` and
`dphi alpha i x` its derivative. -/
structure ExpTab.Spec (E : ExpTab K P) (D : ℕ) (phi : ℕ → P → K) (dphi : List ℕ → ℕ → P → K) : Prop where
  tab : ∀ (pts : List P) (i j : ℕ) (x : P), i < E.num → pts[j]? = some x → E.tab pts i j = phi i x
  jet : ∀ (pts : List P) (order : ℕ) (α : List ℕ), α.length = D → α.sum ≤ order →
    ∃ t, Dict.get? (E.jet pts order) α = some t ∧
      ∀ (i j : ℕ) (x : P), i < E.num → pts[j]? = some x → t i j = dphi α i x

private theorem le_foldr_max (l : List ℕ) (x : ℕ) (h : x ∈ l) : x ≤ l.foldr max 0 := by
  induction l with
  | nil => simp at h
  | cons a l ih =>
    rw [List.foldr_cons]
    rcases List.mem_cons.1 h with rfl | h
    · exact le_max_left _ _
    · exact (ih h).trans (le_max_right _ _)

private theorem order_le (l : Functional K P) {xw : P × List (K × List ℕ × List ℕ)} (h : xw ∈ l.deriv)
    {wac : K × List ℕ × List ℕ} (h2 : wac ∈ xw.2) : wac.2.1.sum ≤ l.maxDerivOrder := by
  apply le_foldr_max
  exact List.mem_map.2 ⟨wac, List.mem_flatMap.2 ⟨xw, h, h2⟩, rfl⟩

private theorem sum_keys {α M : Type*} [AddCommMonoid M] (d : Dict P (List α)) (hd : Dict.WF d)
    (f : α → P → M) :
    ((Dict.keys d).map fun x => (((Dict.get? d x).getD []).map fun b => f b x).sum).sum =
      (d.map fun xw => (xw.2.map fun b => f b xw.1).sum).sum := by
  rw [Dict.keys, List.map_map]
  congr 1
  apply List.map_congr_left
  intro xw hx
  have := Dict.get?_of_mem hd (k := xw.1) (v := xw.2) hx
  simp [Function.comp, this]

/-- The table used for multi-index `α`. -/
private noncomputable def pick (J : Dict (List ℕ) (ℕ → ℕ → K)) (α : List ℕ) : ℕ → ℕ → K :=
  (Dict.get? J α).getD fun _ _ => 0

/-- C19: entry `(c, i)` of `to_riesz` is the functional applied to the field whose component `c` is
expansion function `i` and whose other components are zero. -/
theorem to_riesz_entry (E : ExpTab K P) (D : ℕ) (phi : ℕ → P → K) (dphi : List ℕ → ℕ → P → K)
    (hE : E.Spec D phi dphi) (l : Functional K P) (hl : l.WF D) :
    ∃ R, l.toRiesz E = some R ∧ ∀ c i, i < E.num → R (c, i) =
      l.apply (fun c' x => if c' = c then phi i x else 0)
        (fun α c' x => if c' = c then dphi α i x else 0) := by
  have hval : ∀ c i, i < E.num → ((Dict.keys l.pt).zipIdx.foldl (fun r pj =>
    (List.range E.num).foldl (fun r i =>
      ((Dict.get? l.pt pj.1).getD []).foldl (fun r wc =>
        addAt r (wc.2, i) (wc.1 * E.tab (Dict.keys l.pt) i pj.2)) r) r)
    (fun _ => (0 : K))) (c, i) =
      (l.pt.map fun xw => (xw.2.map fun wc => wc.1 * if wc.2 = c then phi i xw.1 else 0).sum).sum := by
    intro c i hi
    rw [loop3 _ _ (fun pj : P × ℕ => (Dict.get? l.pt pj.1).getD []) Prod.snd
      (fun wc pj i => wc.1 * E.tab (Dict.keys l.pt) i pj.2) _ c i hi, zero_add,
      sum_zipIdx (Dict.keys l.pt)
        (fun x j => (((Dict.get? l.pt x).getD []).map fun wc =>
          if wc.2 = c then wc.1 * E.tab (Dict.keys l.pt) i j else 0).sum)
        (fun x => (((Dict.get? l.pt x).getD []).map fun wc =>
          wc.1 * if wc.2 = c then phi i x else 0).sum)
        (fun j x hx => by simp only [hE.tab _ i j x hi hx, mul_ite, mul_zero])]
    exact sum_keys l.pt hl.pt (fun wc x => wc.1 * if wc.2 = c then phi i x else 0)
  unfold Functional.toRiesz Functional.apply
  by_cases hd : l.deriv.isEmpty
  · refine ⟨_, if_pos hd, fun c i hi => ?_⟩
    have : l.deriv = [] := List.isEmpty_iff.1 hd
    rw [hval c i hi, this]; simp
  · simp only [if_neg hd]
    set m0 := ((Dict.keys l.pt).zipIdx.foldl (fun r pj =>
    (List.range E.num).foldl (fun r i =>
      ((Dict.get? l.pt pj.1).getD []).foldl (fun r wc =>
        addAt r (wc.2, i) (wc.1 * E.tab (Dict.keys l.pt) i pj.2)) r) r)
    (fun _ => (0 : K))) with hm0
    set J := E.jet (Dict.keys l.deriv) l.maxDerivOrder with hJ
    have hpick : ∀ x ∈ Dict.keys l.deriv, ∀ wac ∈ (Dict.get? l.deriv x).getD [],
        Dict.get? J wac.2.1 = some (pick J wac.2.1) ∧
        ∀ (i j : ℕ) (x : P), i < E.num → (Dict.keys l.deriv)[j]? = some x →
          pick J wac.2.1 i j = dphi wac.2.1 i x := by
      intro x hx wac hw
      obtain ⟨xw, hxw, rfl⟩ := List.mem_map.1 hx
      have hg := Dict.get?_of_mem hl.deriv (k := xw.1) (v := xw.2) hxw
      rw [hg, Option.getD_some] at hw
      obtain ⟨t, h1, h2⟩ := hE.jet (Dict.keys l.deriv) l.maxDerivOrder wac.2.1
        (hl.len xw hxw wac hw) (order_le l hxw hw)
      rw [← hJ] at h1
      rw [pick, h1]; exact ⟨rfl, h2⟩
    have hmem : ∀ pj ∈ (Dict.keys l.deriv).zipIdx, pj.1 ∈ Dict.keys l.deriv :=
      fun pj h => List.fst_mem_of_mem_zipIdx h
    refine ⟨_, foldlM_some _ _ (fun r pj => (List.range E.num).foldl (fun r i =>
        ((Dict.get? l.deriv pj.1).getD []).foldl (fun r wac =>
          addAt r (wac.2.2, i) (wac.1 * pick J wac.2.1 i pj.2)) r) r) ?_ _, ?_⟩
    · intro pj hpj r
      refine foldlM_some _ _ _ (fun i _ r => foldlM_some _ _ _ (fun wac hw r => ?_) _) _
      rw [(hpick pj.1 (hmem pj hpj) wac hw).1]; rfl
    · intro c i hi
      rw [loop3 _ _ (fun pj : P × ℕ => (Dict.get? l.deriv pj.1).getD []) (fun wac => wac.2.2)
        (fun wac pj i => wac.1 * pick J wac.2.1 i pj.2) _ c i hi, hval c i hi]
      congr 1
      rw [sum_zipIdx (Dict.keys l.deriv)
        (fun x j => (((Dict.get? l.deriv x).getD []).map fun wac =>
          if wac.2.2 = c then wac.1 * pick J wac.2.1 i j else 0).sum)
        (fun x => (((Dict.get? l.deriv x).getD []).map fun wac =>
          wac.1 * if wac.2.2 = c then dphi wac.2.1 i x else 0).sum)
        (fun j x hx => by
          congr 1
          apply List.map_congr_left
          intro wac hw
          rw [(hpick x (List.mem_of_getElem? hx) wac hw).2 i j x hi hx, mul_ite, mul_zero])]
      exact sum_keys l.deriv hl.deriv (fun wac x => wac.1 * if wac.2.2 = c then dphi wac.2.1 i x else 0)

/-! Linearity of `apply`. -/

private theorem list_sum_comm {α : Type*} {ι : Type*} (L : List α) (T : Finset ι) (f : α → ι → K) :
    (L.map fun a => ∑ t ∈ T, f a t).sum = ∑ t ∈ T, (L.map fun a => f a t).sum := by
  induction L with
  | nil => simp
  | cons a L ih => simp [ih, Finset.sum_add_distrib]

theorem Functional.apply_sum (l : Functional K P) {ι : Type} (T : Finset ι) (a : ι → K)
    (val : ι → List ℕ → P → K) (der : ι → List ℕ → List ℕ → P → K) :
    l.apply (fun c x => ∑ t ∈ T, a t * val t c x) (fun α c x => ∑ t ∈ T, a t * der t α c x) =
      ∑ t ∈ T, a t * l.apply (val t) (der t) := by
  unfold Functional.apply
  simp only [mul_add, Finset.sum_add_distrib, Finset.mul_sum, list_sum_comm]
  congr 1
  · refine Finset.sum_congr rfl fun t _ => ?_
    rw [← List.sum_map_mul_left]
    congr 2; funext xw
    rw [← List.sum_map_mul_left]
    congr 2; funext wc
    ring
  · refine Finset.sum_congr rfl fun t _ => ?_
    rw [← List.sum_map_mul_left]
    congr 2; funext xw
    rw [← List.sum_map_mul_left]
    congr 2; funext wc
    ring

/-- The components the functional looks at. -/
def Functional.UsesOnly (l : Functional K P) (S : Finset (List ℕ)) : Prop :=
  (∀ xw ∈ l.pt, ∀ wc ∈ xw.2, wc.2 ∈ S) ∧ ∀ xw ∈ l.deriv, ∀ wac ∈ xw.2, wac.2.2 ∈ S

theorem Functional.apply_congr (l : Functional K P) (S : Finset (List ℕ)) (hS : l.UsesOnly S)
    {val val' : List ℕ → P → K} {der der' : List ℕ → List ℕ → P → K}
    (h1 : ∀ c ∈ S, ∀ x, val c x = val' c x) (h2 : ∀ α, ∀ c ∈ S, ∀ x, der α c x = der' α c x) :
    l.apply val der = l.apply val' der' := by
  unfold Functional.apply
  congr 2
  · apply List.map_congr_left
    intro xw hx
    congr 1
    apply List.map_congr_left
    intro wc hw
    rw [h1 _ (hS.1 xw hx wc hw)]
  · apply List.map_congr_left
    intro xw hx
    congr 1
    apply List.map_congr_left
    intro wc hw
    rw [h2 _ _ (hS.2 xw hx wc hw)]

/-- C19: contracting `to_riesz` with the expansion coefficients `a c i` of a field gives the functional
applied to that field. -/
theorem to_riesz_contract (E : ExpTab K P) (D : ℕ) (phi : ℕ → P → K) (dphi : List ℕ → ℕ → P → K)
    (hE : E.Spec D phi dphi) (l : Functional K P) (hl : l.WF D) (S : Finset (List ℕ))
    (hS : l.UsesOnly S) (a : List ℕ → ℕ → K) :
    ∃ R, l.toRiesz E = some R ∧
      ∑ c ∈ S, ∑ i ∈ Finset.range E.num, R (c, i) * a c i =
        l.apply (fun c x => ∑ i ∈ Finset.range E.num, a c i * phi i x)
          (fun α c x => ∑ i ∈ Finset.range E.num, a c i * dphi α i x) := by
  obtain ⟨R, h1, h2⟩ := to_riesz_entry E D phi dphi hE l hl
  refine ⟨R, h1, ?_⟩
  have e : ∀ c ∈ S, ∀ i ∈ Finset.range E.num, R (c, i) * a c i = a c i *
      l.apply (fun c' x => if c' = c then phi i x else 0)
        (fun α c' x => if c' = c then dphi α i x else 0) := by
    intro c _ i hi
    rw [h2 c i (Finset.mem_range.1 hi), mul_comm]
  rw [Finset.sum_congr rfl fun c hc => Finset.sum_congr rfl (e c hc), ← Finset.sum_product',
    ← Functional.apply_sum l (S ×ˢ Finset.range E.num) (fun t => a t.1 t.2)
      (fun t c' x => if c' = t.1 then phi t.2 x else 0)
      (fun t α c' x => if c' = t.1 then dphi α t.2 x else 0)]
  refine Functional.apply_congr l S hS (fun c hc x => ?_) (fun α c hc x => ?_)
  · rw [Finset.sum_product, Finset.sum_eq_single c]
    · simp
    · intro b _ hb; simp [Ne.symm hb]
    · exact fun h => absurd hc h
  · rw [Finset.sum_product, Finset.sum_eq_single c]
    · simp
    · intro b _ hb; simp [Ne.symm hb]
    · exact fun h => absurd hc h

/-! ### The whole dual set -/

private theorem sum_which {M : Type*} [AddCommMonoid M] (nodes : List (Functional K P))
    (keysOf : Functional K P → List P) (hk : ∀ l ∈ nodes, (keysOf l).Nodup) (k : ℕ)
    (l : Functional K P) (hkl : nodes[k]? = some l) (F : P → M) :
    ((Dict.keys (ptsToElls keysOf nodes)).map fun x =>
      (((Dict.get? (ptsToElls keysOf nodes) x).getD []).map fun k' => if k' = k then F x else 0).sum).sum =
    ((keysOf l).map F).sum := by
  have hmem : l ∈ nodes := List.mem_of_getElem? hkl
  have h1 : ∀ x, (((Dict.get? (ptsToElls keysOf nodes) x).getD []).map fun k' =>
      if k' = k then F x else 0).sum = if x ∈ keysOf l then F x else 0 := by
    intro x
    rw [getD_ptsToElls keysOf nodes hk, List.map_map, ← sum_filter_zero]
    have hlt : k < nodes.length := (List.getElem?_eq_some_iff.1 hkl).1
    have : (nodes.zipIdx.map fun li => if x ∈ keysOf li.1 then
        ((fun k' => if k' = k then F x else 0) ∘ Prod.snd) li else 0) =
        ((List.range nodes.length).map fun k' => if k' = k then (if x ∈ keysOf l then F x else 0) else 0) := by
      apply List.ext_getElem?
      intro j
      rw [List.getElem?_map, List.getElem?_map, List.getElem?_zipIdx, Option.map_map]
      by_cases hj : j < nodes.length
      · rw [List.getElem?_range hj, List.getElem?_eq_getElem hj]
        simp only [Option.map_some, Function.comp, zero_add, Option.some.injEq]
        by_cases hjk : j = k
        · subst hjk
          rw [List.getElem?_eq_getElem hj, Option.some.injEq] at hkl
          simp [hkl]
        · simp [hjk]
      · rw [List.getElem?_eq_none (by omega), List.getElem?_eq_none (by simpa using hj)]; rfl
    rw [this, sum_range_select nodes.length k hlt]
  simp only [h1]
  rw [sum_filter_zero]
  apply List.Perm.sum_eq
  apply List.Perm.map
  rw [List.perm_ext_iff_of_nodup ((nodup_keys_ptsToElls keysOf nodes).filter _) (hk l hmem)]
  intro x
  rw [List.mem_filter, mem_keys_ptsToElls]
  simp only [decide_eq_true_eq, and_iff_right_iff_imp]
  exact fun hx => ⟨l, hmem, hx⟩

/-- C19: slice `k` of `DualSet.to_riesz` is `to_riesz` of node `k`, provided some node takes a derivative of
positive order or no node has derivative entries (see `dual_to_riesz_order_zero` for the exception). -/
theorem dual_to_riesz_entry (E : ExpTab K P) (D : ℕ) (phi : ℕ → P → K) (dphi : List ℕ → ℕ → P → K)
    (hE : E.Spec D phi dphi) (nodes : List (Functional K P)) (hne : nodes ≠ [])
    (hwf : ∀ l ∈ nodes, l.WF D)
    (hord : (∃ l ∈ nodes, 0 < l.maxDerivOrder) ∨ ∀ l ∈ nodes, l.deriv = []) :
    ∃ M, dualToRiesz E nodes = some M ∧ ∀ k l, nodes[k]? = some l →
      ∃ R, l.toRiesz E = some R ∧ ∀ c i, i < E.num → M (k, c, i) = R (c, i) := by
  have hval : ∀ k l, nodes[k]? = some l → ∀ c i, i < E.num →
      ((Dict.keys (ptsToElls (fun l => Dict.keys l.pt) nodes)).zipIdx.foldl (fun m pj =>
      ((Dict.get? (ptsToElls (fun l => Dict.keys l.pt) nodes) pj.1).getD []).foldl (fun m k =>
        (List.range E.num).foldl (fun m i =>
          (((nodes[k]?).bind fun l => Dict.get? l.pt pj.1).getD []).foldl (fun m wc =>
            addAt m (k, wc.2, i)
              (wc.1 * E.tab (Dict.keys (ptsToElls (fun l => Dict.keys l.pt) nodes)) i pj.2)) m) m) m)
        (fun _ => (0 : K))) (k, c, i) =
      (l.pt.map fun xw => (xw.2.map fun wc => wc.1 * if wc.2 = c then phi i xw.1 else 0).sum).sum := by
    intro k l hkl c i hi
    rw [loop4 _ (fun pj : P × ℕ => (Dict.get? (ptsToElls (fun l => Dict.keys l.pt) nodes) pj.1).getD [])
      E.num (fun pj k => ((nodes[k]?).bind fun l => Dict.get? l.pt pj.1).getD []) Prod.snd
      (fun wc pj i => wc.1 * E.tab (Dict.keys (ptsToElls (fun l => Dict.keys l.pt) nodes)) i pj.2)
      _ k c i hi, zero_add,
      sum_zipIdx (Dict.keys (ptsToElls (fun l => Dict.keys l.pt) nodes))
        (fun x j => (((Dict.get? (ptsToElls (fun l => Dict.keys l.pt) nodes) x).getD []).map fun k' =>
          if k' = k then ((((nodes[k]?).bind fun l => Dict.get? l.pt x).getD []).map fun wc =>
            if wc.2 = c then
              wc.1 * E.tab (Dict.keys (ptsToElls (fun l => Dict.keys l.pt) nodes)) i j else 0).sum
            else 0).sum)
        (fun x => (((Dict.get? (ptsToElls (fun l => Dict.keys l.pt) nodes) x).getD []).map fun k' =>
          if k' = k then ((((Dict.get? l.pt x).getD []).map fun wc =>
            wc.1 * if wc.2 = c then phi i x else 0).sum) else 0).sum)
        (fun j x hx => by simp only [hE.tab _ i j x hi hx, mul_ite, mul_zero, hkl, Option.bind_some]),
      sum_which nodes (fun l => Dict.keys l.pt) (fun l hl => (hwf l hl).pt) k l hkl
        (fun x => (((Dict.get? l.pt x).getD []).map fun wc =>
            wc.1 * if wc.2 = c then phi i x else 0).sum)]
    exact sum_keys l.pt (hwf l (List.mem_of_getElem? hkl)).pt
      (fun wc x => wc.1 * if wc.2 = c then phi i x else 0)
  have hR : ∀ (k : ℕ) (l : Functional K P), nodes[k]? = some l → ∃ R, l.toRiesz E = some R ∧ ∀ c i, i < E.num → R (c, i) =
      l.apply (fun c' x => if c' = c then phi i x else 0)
        (fun α c' x => if c' = c then dphi α i x else 0) :=
    fun k l hkl => to_riesz_entry E D phi dphi hE l (hwf l (List.mem_of_getElem? hkl))
  unfold dualToRiesz
  rw [if_neg (by rw [List.isEmpty_iff]; exact hne)]
  simp only
  set m0 := ((Dict.keys (ptsToElls (fun l => Dict.keys l.pt) nodes)).zipIdx.foldl (fun m pj =>
      ((Dict.get? (ptsToElls (fun l => Dict.keys l.pt) nodes) pj.1).getD []).foldl (fun m k =>
        (List.range E.num).foldl (fun m i =>
          (((nodes[k]?).bind fun l => Dict.get? l.pt pj.1).getD []).foldl (fun m wc =>
            addAt m (k, wc.2, i)
              (wc.1 * E.tab (Dict.keys (ptsToElls (fun l => Dict.keys l.pt) nodes)) i pj.2)) m) m) m)
        (fun _ => (0 : K))) with hm0
  set order := (nodes.map Functional.maxDerivOrder).foldr max 0 with horder
  have hle : ∀ l ∈ nodes, l.maxDerivOrder ≤ order := fun l hl =>
    le_foldr_max _ _ (List.mem_map_of_mem hl)
  by_cases ho : 0 < order
  · rw [if_pos ho]
    set DK := Dict.keys (ptsToElls (fun l => Dict.keys l.deriv) nodes) with hDK
    set J := E.jet DK order with hJ
    have hpick : ∀ (k : ℕ) (l : Functional K P), nodes[k]? = some l → ∀ x, ∀ wac ∈ (Dict.get? l.deriv x).getD [],
        Dict.get? J wac.2.1 = some (pick J wac.2.1) ∧
        ∀ (i j : ℕ) (x : P), i < E.num → DK[j]? = some x →
          pick J wac.2.1 i j = dphi wac.2.1 i x := by
      intro k l hkl x wac hw
      have hl := List.mem_of_getElem? hkl
      cases hg : Dict.get? l.deriv x with
      | none => rw [hg] at hw; simp at hw
      | some ws =>
        rw [hg, Option.getD_some] at hw
        have hx := Dict.mem_of_get? hg
        obtain ⟨t, h1, h2⟩ := hE.jet DK order wac.2.1
          ((hwf l hl).len _ hx wac hw) ((order_le l hx hw).trans (hle l hl))
        rw [← hJ] at h1
        rw [pick, h1]; exact ⟨rfl, h2⟩
    refine ⟨_, foldlM_some _ _ (fun m pj =>
        ((Dict.get? (ptsToElls (fun l => Dict.keys l.deriv) nodes) pj.1).getD []).foldl (fun m k =>
          (List.range E.num).foldl (fun m i =>
            (((nodes[k]?).bind fun l => Dict.get? l.deriv pj.1).getD []).foldl (fun m wac =>
              addAt m (k, wac.2.2, i) (wac.1 * pick J wac.2.1 i pj.2)) m) m) m) ?_ _, ?_⟩
    · intro pj hpj m
      refine foldlM_some _ _ _ (fun k _ m => foldlM_some _ _ _ (fun i _ m =>
        foldlM_some _ _ _ (fun wac hw m => ?_) _) _) _
      cases hkl : nodes[k]? with
      | none => rw [hkl] at hw; simp at hw
      | some l =>
        rw [hkl, Option.bind_some] at hw
        rw [(hpick k l hkl pj.1 wac hw).1]; rfl
    · intro k l hkl
      obtain ⟨R, hR1, hR2⟩ := hR k l hkl
      refine ⟨R, hR1, fun c i hi => ?_⟩
      rw [hR2 c i hi, loop4 _
        (fun pj : P × ℕ => (Dict.get? (ptsToElls (fun l => Dict.keys l.deriv) nodes) pj.1).getD [])
        E.num (fun pj k => ((nodes[k]?).bind fun l => Dict.get? l.deriv pj.1).getD []) (fun wac => wac.2.2)
        (fun wac pj i => wac.1 * pick J wac.2.1 i pj.2) _ k c i hi, hval k l hkl c i hi]
      unfold Functional.apply
      congr 1
      rw [sum_zipIdx DK
        (fun x j => (((Dict.get? (ptsToElls (fun l => Dict.keys l.deriv) nodes) x).getD []).map fun k' =>
          if k' = k then ((((nodes[k]?).bind fun l => Dict.get? l.deriv x).getD []).map fun wac =>
            if wac.2.2 = c then wac.1 * pick J wac.2.1 i j else 0).sum else 0).sum)
        (fun x => (((Dict.get? (ptsToElls (fun l => Dict.keys l.deriv) nodes) x).getD []).map fun k' =>
          if k' = k then ((((Dict.get? l.deriv x).getD []).map fun wac =>
            wac.1 * if wac.2.2 = c then dphi wac.2.1 i x else 0).sum) else 0).sum)
        (fun j x hx => by
          simp only [hkl, Option.bind_some]
          congr 1
          apply List.map_congr_left
          intro k' _
          congr 2
          apply List.map_congr_left
          intro wac hw
          rw [(hpick k l hkl x wac hw).2 i j x hi hx, mul_ite, mul_zero]),
        sum_which nodes (fun l => Dict.keys l.deriv) (fun l hl => (hwf l hl).deriv) k l hkl
        (fun x => (((Dict.get? l.deriv x).getD []).map fun wac =>
            wac.1 * if wac.2.2 = c then dphi wac.2.1 i x else 0).sum)]
      exact sum_keys l.deriv (hwf l (List.mem_of_getElem? hkl)).deriv
        (fun wac x => wac.1 * if wac.2.2 = c then dphi wac.2.1 i x else 0)
  · rw [if_neg ho]
    refine ⟨m0, rfl, fun k l hkl => ?_⟩
    obtain ⟨R, hR1, hR2⟩ := hR k l hkl
    refine ⟨R, hR1, fun c i hi => ?_⟩
    have hd : l.deriv = [] := by
      rcases hord with ⟨l', hl', h⟩ | h
      · exact absurd (lt_of_lt_of_le h (hle l' hl')) ho
      · exact h l (List.mem_of_getElem? hkl)
    rw [hR2 c i hi, hval k l hkl c i hi, Functional.apply, hd]
    simp

/-- The exception: a dual set whose only derivative entries have order zero.  `PointDerivative(x, (0,))` is
the point value, `Functional.to_riesz` gives `phi_0(x)`, but `DualSet.to_riesz` ignores the entry. -/
theorem dual_to_riesz_order_zero (E : ExpTab ℚ ℚ) (phi : ℕ → ℚ → ℚ) (dphi : List ℕ → ℕ → ℚ → ℚ)
    (hE : E.Spec 1 phi dphi) (hnum : 0 < E.num) (h1 : dphi [0] 0 (1 / 2) = 1) :
    let l : Functional ℚ ℚ := ⟨[], [(1 / 2, [(1, [0], [])])]⟩
    (∃ R, l.toRiesz E = some R ∧ R ([], 0) = 1) ∧
    ∃ M, dualToRiesz E [l] = some M ∧ M (0, [], 0) = 0 := by
  intro l
  constructor
  · obtain ⟨R, hR, h⟩ := to_riesz_entry E 1 phi dphi hE l
      ⟨by simp [l, Dict.WF, Dict.keys], by simp [l, Dict.WF, Dict.keys],
        by simp only [l, List.mem_singleton]; rintro _ rfl _ h; simp at h; rw [h]; rfl⟩
    refine ⟨R, hR, ?_⟩
    rw [h [] 0 hnum]
    simp only [Functional.apply, l]
    simpa using h1
  · exact ⟨fun _ => 0, rfl, rfl⟩

end FIAT
