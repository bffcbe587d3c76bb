/-
C18 for elements whose degrees of freedom are point evaluations at any unisolvent set of points.
-/
import Verif.Props.EndToEnd

namespace FIAT
open MvPolynomial

private theorem point_ciarlet {D N : ℕ} (hd : 1 ≤ D) (k : ℕ)
    (phi : Fin N → MvPolynomial (Fin D) ℝ) (hdeg : ∀ i, (phi i).totalDegree ≤ k)
    (hli : LinearIndependent ℝ phi) (base : List (Fin D → ℝ) → ℕ → ℕ → ℝ) (hbase : BaseSpec phi base)
    (mats : List (Matrix (Fin N) (Fin N) ℝ)) (hm : DmatSpec phi mats) (hpos : 0 < N)
    (nodes : List (Fin D → ℝ)) (hlen : nodes.length = N) (hun : Unisolvent k nodes) :
    ∃ S', ciarletElement (onExpTab N D base mats) (fun _ : Unit => []) (onScalarSet N D base mats)
        (nodes.map pointEvaluation) = some S' ∧
      ∀ (i : ℕ) x, nodes[i]? = some x → ∀ j : Fin N,
        eval x (S'.member phi j ()) = if i = (j : ℕ) then 1 else 0 := by
  have hmemb : ∀ j, (onScalarSet N D base mats).member phi j () = phi j := by
    intro j
    unfold PolySet.member onScalarSet
    rw [Finset.sum_eq_single j]
    · simp
    · intro b _ hb; simp [Ne.symm hb]
    · simp
  have hget : ∀ i : Fin N, nodes[(i : ℕ)]? = some (nodes.get (i.cast hlen.symm)) := fun i => by
    rw [List.getElem?_eq_getElem (by omega)]; rfl
  have hV : (vandermonde (nodes.map pointEvaluation)
      ((onScalarSet N D base mats).field phi (fun _ : Unit => []))).det ≠ 0 := by
    apply IsUnit.ne_zero
    apply collocation_isUnit k phi hdeg hli nodes hlen hun
    intro i j
    rw [vandermonde, Matrix.of_apply, List.getElem?_map, hget]
    simp only [Option.map_some]
    rw [pointEval_onField]
    congr 1
    unfold PolySet.field
    simpa using hmemb j
  obtain ⟨S', h3, _, _, _, h4, _⟩ := ciarlet_nodal phi (onExpTab N D base mats) rfl
    (on_exp_tab_spec hd phi base hbase mats hm) (nodes.map pointEvaluation)
    (by intro h; rw [List.map_eq_nil_iff] at h; rw [h] at hlen; simp at hlen; omega)
    (by
      intro l hl
      obtain ⟨x, _, rfl⟩ := List.mem_map.1 hl
      exact ⟨by simp [pointEvaluation, Dict.WF, Dict.keys], by simp [pointEvaluation, Dict.WF, Dict.keys],
        by simp [pointEvaluation]⟩)
    (Or.inr (by
      intro l hl
      obtain ⟨x, _, rfl⟩ := List.mem_map.1 hl
      rfl))
    (fun _ : Unit => []) (fun _ _ _ => rfl) (onScalarSet N D base mats) (by simpa using hlen) hV
  refine ⟨S', h3, fun i x hx j => ?_⟩
  have := h4 i (pointEvaluation x) (by rw [List.getElem?_map, hx]; rfl) j
  rw [pointEval_onField] at this
  rw [← this]
  unfold PolySet.field
  simp

/-- C18: with any unisolvent list of `dim P_k` points the constructor succeeds and `tabulate(order, pts)` returns the values
of all partial derivatives of order at most `order` of the polynomials of degree at most `k` that are 1 at their own node and
0 at the other nodes. -/
theorem point_element_spec {D : ℕ} (hD : D = 1 ∨ D = 2 ∨ D = 3) (s : SimplexCell (Fin D → ℝ))
    (hs : ProperSimplex ℝ s) (hv : Increasing fun i : Fin (D + 1) => s.v i) (k : ℕ) (nodes : List (Fin D → ℝ))
    (hlen : nodes.length = (k + D).choose D) (hun : Unisolvent k nodes) :
    ∃ el, pointElement s k nodes = some el ∧
      ∃ ℓ : Fin ((k + D).choose D) → MvPolynomial (Fin D) ℝ, (∀ j, (ℓ j).totalDegree ≤ k) ∧
      (∀ (i : ℕ) x, nodes[i]? = some x → ∀ j, eval x (ℓ j) = if i = (j : ℕ) then 1 else 0) ∧
      ∀ (pts : List (Fin D → ℝ)) (order : ℕ), ∃ res, el.tabulate pts order = some res ∧
        (∀ α, α ∈ Dict.keys res ↔ α.length = D ∧ α.sum ≤ order) ∧
        ∀ α T, Dict.get? res α = some T → ∀ i c (j : ℕ) x, pts[j]? = some x → T i c j = eval x (iterDeriv α (ℓ i)) := by
  obtain ⟨mats, h1, φ, hdeg, h2, h3, h4⟩ := on_core hD s hs hv k
  obtain ⟨S', c1, c2⟩ := point_ciarlet (by omega) k φ hdeg h2.1 _ h3 mats h4 (Nat.choose_pos (Nat.le_add_left _ _)) nodes hlen hun
  have hS : S'.base = expTab s.verts k ∧ S'.dmats = mats ∧ S'.sd = D := by
    unfold ciarletElement at c1
    simp only [Option.bind_eq_bind, Option.bind_eq_some_iff] at c1
    obtain ⟨M, -, new, -, e⟩ := c1
    rw [show S' = _ from (Option.some.inj e).symm]
    exact ⟨rfl, rfl, rfl⟩
  refine ⟨S', ?_, fun j => S'.member φ j (), ?_, ?_, fun pts order => ?_⟩
  · unfold pointElement
    simp only [h1, Option.bind_eq_bind, Option.bind_some]
    convert c1 <;> rfl
  · intro j
    unfold PolySet.member
    refine totalDegree_finsetSum_le fun i _ => ?_
    refine (totalDegree_mul _ _).trans ?_
    rw [totalDegree_C, zero_add]; exact hdeg i
  · intro i x hx j; exact c2 i x hx j
  · rw [← hS.1] at h3
    rw [← hS.2.1] at h4
    obtain ⟨res, r1, -, r2, r3⟩ := tabulate_spec (by omega) φ S' hS.2.2 h3 h4 pts order
    exact ⟨res, r1, r2, fun α T hT i c j x hx => r3 α T hT i c j x hx⟩

/-- On a line, `k + 1` different points are unisolvent for `P_k`. -/
theorem line_unisolvent (k : ℕ) (nodes : List (Fin 1 → ℝ)) (hlen : nodes.length = k + 1) (hnd : nodes.Nodup) : Unisolvent k nodes := by
  intro p hp hz
  set q : Polynomial ℝ := aeval (fun _ : Fin 1 => (Polynomial.X : Polynomial ℝ)) p with hq
  have hev : ∀ x : Fin 1 → ℝ, eval x p = q.eval (x 0) := by
    intro x
    have e : (fun _ : Fin 1 => Polynomial.aeval (x 0) (Polynomial.X : Polynomial ℝ)) = x := by
      funext i
      rw [Subsingleton.elim i 0]; simp
    rw [hq, ← Polynomial.coe_aeval_eq_eval, ← AlgHom.comp_apply, comp_aeval, e, ← coe_aeval_eq_eval, RingHom.coe_coe]
  have hdeg : q.natDegree ≤ k := by
    have := aeval_natDegree_le p hp (fun _ : Fin 1 => (Polynomial.X : Polynomial ℝ)) (n := 1) (fun _ => Polynomial.natDegree_X_le)
    simpa using this
  have hq0 : q = 0 := by
    refine Polynomial.eq_zero_of_natDegree_lt_card_of_eval_eq_zero' q ((nodes.map fun x => x 0).toFinset) ?_ ?_
    · intro t ht
      rw [List.mem_toFinset, List.mem_map] at ht
      obtain ⟨x, hx, rfl⟩ := ht
      rw [← hev, hz x hx]
    · rw [List.toFinset_card_of_nodup, List.length_map, hlen]
      · omega
      · refine hnd.map fun x y hxy => ?_
        funext i
        rw [Subsingleton.elim i 0]; exact hxy
  refine MvPolynomial.funext fun x => ?_
  rw [hev, hq0]; simp

end FIAT
