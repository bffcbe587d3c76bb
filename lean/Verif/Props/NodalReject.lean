/-
C64: the consistency check of `NodalEnrichedElement`.
-/
import Verif.Model.NodalEnriched
import Mathlib.Tactic.NormNum
import Mathlib.Tactic.Linarith

namespace FIAT
section
variable {D : ℕ} {Cp : Type}

private theorem last_largest_append (pre : List (NodalPart D Cp)) (best : NodalPart D Cp) (post : List (NodalPart D Cp))
    (hpre : ∀ p ∈ pre, (p.degree + D).choose D ≤ (best.degree + D).choose D)
    (hpost : ∀ p ∈ post, (p.degree + D).choose D < (best.degree + D).choose D) : lastLargest (pre ++ best :: post) = some best := by
  have hp : ∀ q, lastLargest post = some q → q ∈ post := by
    clear hpost
    induction post with
    | nil => intro q h; exact absurd h (by simp [lastLargest])
    | cons p ps ih =>
      intro q h
      unfold lastLargest at h
      rcases e : lastLargest ps with _ | r
      · rw [e] at h; simp only [Option.some.injEq] at h; simp [h]
      · rw [e] at h; simp only at h
        split_ifs at h
        · simp only [Option.some.injEq] at h; simp [h]
        · simp only [Option.some.injEq] at h; subst h; exact List.mem_cons_of_mem _ (ih r e)
  induction pre with
  | nil =>
    show (match lastLargest post with | none => some best | some q => if q.expDim < best.expDim then some best else some q) = some best
    rcases e : lastLargest post with _ | q
    · rfl
    · simp only
      exact if_pos (hpost q (hp q e))
  | cons p ps ih =>
    have h := ih (fun x hx => hpre x (List.mem_cons_of_mem _ hx))
    show (match lastLargest (ps ++ best :: post) with | none => some p | some q => if q.expDim < p.expDim then some p else some q) = some best
    rw [h]
    simp only
    rw [if_neg (by have := hpre p (by simp); show ¬ (best.degree + D).choose D < (p.degree + D).choose D; omega)]

/-- C64: `NodalEnrichedElement` raises when the `i`-th derivative matrix of one of the elements is not, entry for entry up to the
absolute tolerance `1e-8` and the relative tolerance `1e-5`, the leading block of the `i`-th derivative matrix of the last of the
elements with the largest expansion set. -/
theorem nodal_enriched_rejects [Fintype Cp] (s : SimplexCell (Fin D → ℝ)) (comp : Cp → List ℕ) (pre post : List (NodalPart D Cp)) (best : NodalPart D Cp)
    (hpre : ∀ p ∈ pre, (p.degree + D).choose D ≤ (best.degree + D).choose D)
    (hpost : ∀ p ∈ post, (p.degree + D).choose D < (best.degree + D).choose D)
    (p : NodalPart D Cp) (hp : p ∈ pre ++ best :: post) (i : ℕ)
    (A : Matrix (Fin ((p.degree + D).choose D)) (Fin ((p.degree + D).choose D)) ℝ) (hA : p.el.dmats[i]? = some A)
    (B : Matrix (Fin ((best.degree + D).choose D)) (Fin ((best.degree + D).choose D)) ℝ) (hB : best.el.dmats[i]? = some B)
    (r c : ℕ) (hr : r < (p.degree + D).choose D) (hc : c < (p.degree + D).choose D) (hr' : r < (best.degree + D).choose D)
    (hc' : c < (best.degree + D).choose D)
    (hdiff : 1e-8 + 1e-5 * |B ⟨r, hr'⟩ ⟨c, hc'⟩| < |A ⟨r, hr⟩ ⟨c, hc⟩ - B ⟨r, hr'⟩ ⟨c, hc'⟩|) :
    nodalEnriched s comp (pre ++ best :: post) = none := by
  have hm : mergeDmats (pre ++ best :: post) best = none := by
    unfold mergeDmats
    rw [if_neg]
    intro h
    obtain ⟨A', h1, h2⟩ := h i B hB p hp
    rw [hA] at h1
    obtain rfl := Option.some.inj h1
    have h3 := h2 r hr c hc
    unfold natMat at h3
    rw [dif_pos ⟨hr, hc⟩, dif_pos ⟨hr', hc'⟩] at h3
    linarith
  unfold nodalEnriched
  rw [last_largest_append pre best post hpre hpost]
  simp only [Option.bind_eq_bind, Option.bind_some, hm, Option.bind_none]

/-- Two elements whose derivative matrices differ meet the hypotheses. -/
example (s : SimplexCell (Fin 1 → ℝ)) :
    let p : NodalPart 1 Unit := ⟨1, 1, ⟨1, expTab s.verts 1, fun _ _ _ => 0, [fun _ _ => 1]⟩, [], []⟩
    let q : NodalPart 1 Unit := ⟨2, 1, ⟨1, expTab s.verts 2, fun _ _ _ => 0, [fun _ _ => 1.5]⟩, [], []⟩
    nodalEnriched s (fun _ => []) [p, q] = none := by
  intro p q
  refine nodal_enriched_rejects s _ [p] [] q ?_ (by simp) p (by simp) 0 (fun _ _ => 1) rfl (fun _ _ => 1.5) rfl 0 0 (by show 0 < Nat.choose 2 1; decide)
    (by show 0 < Nat.choose 2 1; decide) (by show 0 < Nat.choose 3 1; decide) (by show 0 < Nat.choose 3 1; decide) ?_
  · intro x hx
    rw [List.mem_singleton.1 hx]
    show Nat.choose 2 1 ≤ Nat.choose 3 1
    decide
  · norm_num

end
end FIAT
