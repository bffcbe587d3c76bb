/-
The products of barycentric coordinates are bases of the KMV spaces; the points separate them.
-/
import Verif.Lemmas.KMVCore

namespace FIAT
open MvPolynomial
section
variable {D : ℕ}

theorem sum_map_fin {α M : Type} [AddCommMonoid M] (L : List α) (f : α → M) : (L.map f).sum = ∑ i : Fin L.length, f L[(i : ℕ)] := by
  rw [← List.sum_ofFn]
  congr 1
  apply List.ext_getElem
  · simp
  · intro n h1 h2
    simp

theorem cert_list {xs : List (List ℚ)} {es : List (List ℕ)} {B : List (List ℤ)} (h : certOk xs es B = true) (c : List ℕ → ℝ)
    (hc : ∀ x ∈ xs, (es.map fun e => c e * ((genVal e x : ℚ) : ℝ)).sum = 0) : ∀ e ∈ es, c e = 0 := by
  intro e he
  have := cert_spec h (fun i => c es[(i : ℕ)]) (fun x hx => by rw [← hc x hx, sum_map_fin])
  obtain ⟨i, hi, rfl⟩ := List.getElem_of_mem he
  exact congrFun this ⟨i, hi⟩

/-- A point given by rational coordinates. -/
noncomputable def ratPt (D : ℕ) (x : List ℚ) : Fin D → ℝ := toVec D (x.map fun q : ℚ => (q : ℝ))

/-- Values of a combination of products. -/
theorem eval_comb {x : List ℚ} (hx : x.length = D) (es : List (List ℕ)) (c : List ℕ → ℝ) :
    eval (ratPt D x) ((es.map fun e => c e • genPoly D e).sum) = (es.map fun e => c e * ((genVal e x : ℚ) : ℝ)).sum := by
  rw [map_list_sum, List.map_map]
  congr 1
  refine List.map_congr_left fun e _ => ?_
  simp only [Function.comp_apply, smul_eval]
  rw [ratPt, eval_genPoly x hx]

/-- The products of a list are a basis of a space of that dimension, and the points separate its functions. -/
theorem kmv_span {s : SimplexCell (Fin D → ℝ)} {V : Submodule ℝ (Unit → MvPolynomial (Fin D) ℝ)} {S : NodalPart D Unit}
    (hS : IsNodalPart s (fun _ : Unit => []) V S) {xs : List (List ℚ)} {es : List (List ℕ)} {B : List (List ℤ)} (h : certOk xs es B = true)
    (hdim : S.dim = es.length) (hx : ∀ x ∈ xs, x.length = D) (hmem : ∀ e ∈ es, (fun _ : Unit => genPoly D e) ∈ V) (hnd : es.Nodup) :
    (∀ w ∈ V, ∃ c : List ℕ → ℝ, w () = (es.map fun e => c e • genPoly D e).sum) ∧
      ∀ w ∈ V, (∀ x ∈ xs, eval (ratPt D x) (w ()) = 0) → w = 0 := by
  classical
  set g : Fin es.length → Unit → MvPolynomial (Fin D) ℝ := fun i _ => genPoly D es[(i : ℕ)] with hg
  have hli : LinearIndependent ℝ g := by
    rw [Fintype.linearIndependent_iff]
    intro a ha
    have := cert_spec h a fun x hx' => by
      have h1 := congrArg (fun f : Unit → MvPolynomial (Fin D) ℝ => eval (ratPt D x) (f ())) ha
      simp only [Finset.sum_apply, Pi.smul_apply, map_sum, smul_eval, Pi.zero_apply, map_zero] at h1
      rw [← h1]
      refine Finset.sum_congr rfl fun i _ => ?_
      rw [hg, ratPt, eval_genPoly x (hx x hx')]
    exact fun i => congrFun this i
  have hspan : Submodule.span ℝ (Set.range g) = V := by
    obtain ⟨ψ, p1, p2, p3, -⟩ := hS.nodal
    have hψ : Submodule.span ℝ (Set.range ψ) = V := le_antisymm (Submodule.span_le.2 (by rintro _ ⟨j, rfl⟩; exact p1 j)) p2
    have hle : Submodule.span ℝ (Set.range g) ≤ V := Submodule.span_le.2 (by
      rintro _ ⟨i, rfl⟩
      exact hmem _ (List.getElem_mem i.2))
    haveI : FiniteDimensional ℝ V := by
      rw [← hψ]
      exact FiniteDimensional.span_of_finite ℝ (Set.finite_range ψ)
    refine Submodule.eq_of_le_of_finrank_le hle ?_
    rw [finrank_span_eq_card hli, Fintype.card_fin, ← hdim, ← hψ]
    exact (finrank_range_le_card ψ).trans (by rw [Fintype.card_fin])
  have hrep : ∀ w ∈ V, ∃ c : List ℕ → ℝ, w () = (es.map fun e => c e • genPoly D e).sum := by
    intro w hw
    rw [← hspan, Submodule.mem_span_range_iff_exists_fun ℝ] at hw
    obtain ⟨a, rfl⟩ := hw
    refine ⟨fun e => if h : es.idxOf e < es.length then a ⟨_, h⟩ else 0, ?_⟩
    rw [sum_map_fin, Finset.sum_apply]
    refine Finset.sum_congr rfl fun i _ => ?_
    have : es.idxOf es[(i : ℕ)] = i := List.Nodup.idxOf_getElem hnd _ _
    simp only [this, hg, Pi.smul_apply]
    rw [dif_pos i.2]
  refine ⟨hrep, fun w hw hz => ?_⟩
  obtain ⟨c, hc⟩ := hrep w hw
  have h0 := cert_list h c fun x hx' => by
    rw [← eval_comb (hx x hx'), ← hc]
    exact hz x hx'
  funext u
  show w () = 0
  rw [hc]
  refine List.sum_eq_zero fun y hy => ?_
  obtain ⟨e, he, rfl⟩ := List.mem_map.1 hy
  rw [h0 e he, zero_smul]

/-- The products that belong to vertices of an entity. -/
def suppIn (t : List ℕ) (e : List ℕ) : Bool := (List.range e.length).all fun (a : ℕ) => decide (e.getD a 0 = 0) || decide (a ∈ t)

/-- The certificate for an entity: the points lie on it, and separate the products that belong to it. -/
def entityOk (D : ℕ) (es : List (List ℕ)) (t : List ℕ) (xs : List (List ℚ)) (B : List (List ℤ)) : Bool :=
  certOk xs (es.filter (suppIn t)) B && xs.all fun (x : List ℚ) => (List.range (D + 1)).all fun (a : ℕ) =>
    decide ((baryQ x).getD a 0 = 0) || decide (a ∈ t)

/-- A function of the space that is zero at the points of the certificate is zero on the entity. -/
theorem entity_zero {s : SimplexCell (Fin D → ℝ)} (hu : UFCVerts s) {es : List (List ℕ)} (hes : ∀ e ∈ es, e.length = D + 1) {t : List ℕ}
    (hn : t.Nodup) (ht : ∀ a ∈ t, a < D + 1) {xs : List (List ℚ)} {B : List (List ℤ)} (h : entityOk D es t xs B = true)
    (hx : ∀ x ∈ xs, x.length = D) (c : List ℕ → ℝ) (hz : ∀ x ∈ xs, eval (ratPt D x) ((es.map fun e => c e • genPoly D e).sum) = 0)
    (y : Fin D → ℝ) (hy : OnEntity s t y) : eval y ((es.map fun e => c e • genPoly D e).sum) = 0 := by
  unfold entityOk at h
  rw [Bool.and_eq_true, List.all_eq_true] at h
  obtain ⟨h1, h2⟩ := h
  have hout : ∀ e ∈ es, suppIn t e ≠ true → ∃ a n, a < D + 1 ∧ a ∉ t ∧ e[a]? = some n ∧ n ≠ 0 := by
    intro e he hs
    unfold suppIn at hs
    rw [Ne, List.all_eq_true] at hs
    push Not at hs
    obtain ⟨a, ha, ha'⟩ := hs
    rw [Ne, Bool.or_eq_true, decide_eq_true_iff, decide_eq_true_iff, not_or] at ha'
    have hlt := List.mem_range.1 ha
    refine ⟨a, e[a], by rw [← hes e he]; exact hlt, ha'.2, List.getElem?_eq_getElem hlt, ?_⟩
    have := ha'.1
    rwa [List.getD_eq_getElem?_getD, List.getElem?_eq_getElem hlt, Option.getD_some] at this
  have hc : ∀ e ∈ es.filter (suppIn t), c e = 0 := by
    refine cert_list h1 c fun x hx' => ?_
    have h3 := hz x hx'
    rw [eval_comb (hx x hx')] at h3
    rw [← h3]
    have : ∀ L : List (List ℕ), (∀ e ∈ L, e ∈ es) → ((L.filter (suppIn t)).map fun e => c e * ((genVal e x : ℚ) : ℝ)).sum =
        (L.map fun e => c e * ((genVal e x : ℚ) : ℝ)).sum := by
      intro L
      induction L with
      | nil => simp
      | cons e L ih =>
        intro hL
        rw [List.filter_cons]
        split_ifs with hs
        · rw [List.map_cons, List.sum_cons, List.map_cons, List.sum_cons, ih fun f hf => hL f (List.mem_cons_of_mem _ hf)]
        · rw [List.map_cons, List.sum_cons, ih fun f hf => hL f (List.mem_cons_of_mem _ hf)]
          obtain ⟨a, n, a1, a2, a3, a4⟩ := hout e (hL e List.mem_cons_self) hs
          have h4 := List.all_eq_true.1 (h2 x hx') a (List.mem_range.2 a1)
          rw [Bool.or_eq_true, decide_eq_true_iff, decide_eq_true_iff] at h4
          have h5 := h4.resolve_right a2
          have h6 : genVal e x = 0 := by
            unfold genVal
            have ha : a < (baryQ x).length := by
              unfold baryQ
              rw [List.length_cons, hx x hx']
              exact a1
            rw [List.getD_eq_getElem?_getD, List.getElem?_eq_getElem ha, Option.getD_some] at h5
            rw [List.prod_eq_zero_iff, List.mem_iff_getElem?]
            refine ⟨a, ?_⟩
            rw [List.getElem?_zipWith, a3, List.getElem?_eq_getElem ha, h5]
            simp [a4]
          rw [h6, Rat.cast_zero, mul_zero, zero_add]
    exact this es fun _ h => h
  rw [map_list_sum, List.map_map]
  refine List.sum_eq_zero fun r hr => ?_
  obtain ⟨e, he, rfl⟩ := List.mem_map.1 hr
  simp only [Function.comp_apply, smul_eval]
  by_cases hs : suppIn t e = true
  · rw [hc e (List.mem_filter.2 ⟨he, hs⟩), zero_mul]
  · obtain ⟨a, n, a1, a2, a3, a4⟩ := hout e he hs
    rw [genPoly_vanish hu hn ht hy a1 a2 a3 a4, mul_zero]

/-- The exponents of the products are those of functions of the space. -/
def gensOk (D k : ℕ) (es : List (List ℕ)) : Bool :=
  decide es.Nodup && es.all fun (e : List ℕ) => decide (e.length = D + 1) && (decide (e.sum ≤ k) ||
    decide (k ≠ 1 ∧ D = 2 ∧ e.sum ≤ (if k = 5 then k + 2 else k + 1) ∧ 2 < suppCard e) ||
    decide (k ≠ 1 ∧ D ≠ 2 ∧ e.sum ≤ k + 1 ∧ 2 < suppCard e) || decide (k ≠ 1 ∧ D ≠ 2 ∧ e.sum ≤ k + 2 ∧ 3 < suppCard e))

theorem gens_mem {s : SimplexCell (Fin D → ℝ)} (hs : ProperSimplex ℝ s) (hu : UFCVerts s) {k : ℕ} {es : List (List ℕ)}
    (h : gensOk D k es = true) : es.Nodup ∧ (∀ e ∈ es, e.length = D + 1) ∧ ∀ e ∈ es, (fun _ : Unit => genPoly D e) ∈ KMVSpaceOf s k := by
  unfold gensOk at h
  rw [Bool.and_eq_true, decide_eq_true_iff, List.all_eq_true] at h
  obtain ⟨h1, h2⟩ := h
  simp only [Bool.and_eq_true, Bool.or_eq_true, decide_eq_true_iff] at h2
  refine ⟨h1, fun e he => (h2 e he).1, fun e he => ?_⟩
  obtain ⟨hlen, h3⟩ := h2 e he
  have hdeg := genPoly_degree (D := D) e
  have hvan : ∀ d, d + 1 < suppCard e → ∀ e' t, HasEntity s.topo d e' t → ∀ x, OnEntity s t x → eval x (genPoly D e) = 0 := by
    intro d hd e' t ht x hx
    obtain ⟨g1, g2, g3⟩ := hs.2.1.entity _ _ _ ht
    refine genPoly_vanish_card hu g1 (fun a ha => ?_) hx hlen (by omega)
    have := g3 a ha
    rwa [hs.1] at this
  unfold KMVSpaceOf
  rcases h3 with ((h3 | ⟨h3, h4, h5, h6⟩) | ⟨h3, h4, h5, h6⟩) | ⟨h3, h4, h5, h6⟩
  · have hp : (fun _ : Unit => genPoly D e) ∈ polySpace D k := mem_polySpace.2 (hdeg.trans h3)
    by_cases hk : k = 1
    · rw [if_pos hk]
      rw [hk] at hp
      exact hp
    · rw [if_neg hk]
      by_cases hD : D = 2
      · rw [if_pos hD]
        exact Submodule.mem_sup_left hp
      · rw [if_neg hD]
        exact Submodule.mem_sup_left (Submodule.mem_sup_left hp)
  · rw [if_neg h3, if_pos h4]
    exact Submodule.mem_sup_right ⟨hdeg.trans h5, hvan 1 h6⟩
  · rw [if_neg h3, if_neg h4]
    exact Submodule.mem_sup_left (Submodule.mem_sup_right ⟨hdeg.trans h5, hvan 1 h6⟩)
  · rw [if_neg h3, if_neg h4]
    exact Submodule.mem_sup_right ⟨hdeg.trans h5, hvan 2 h6⟩

end
end FIAT
