/-
C18: `CiarletElement` builds the nodal basis; and the end-to-end consequence for Lagrange elements.
Also: the tables used by `to_riesz` are those of the true derivatives (C17 feeding C19).
-/
import Verif.Props.PolySet
import Verif.Model.FunctionalClasses
import Verif.Props.Lagrange
import Verif.Props.Discontinuous

namespace FIAT
open MvPolynomial

section
variable {K : Type} [Field K] [DecidableEq K] {D N : ℕ}

/-- Specification: the node `l` (point evaluations and derivatives) applied to a field whose component `c`
is the polynomial `F c`. -/
noncomputable def Functional.onField (l : Functional K (Fin D → K)) (F : List ℕ → MvPolynomial (Fin D) K) : K :=
  l.apply (fun c x => eval x (F c)) (fun α c x => eval x (iterDeriv α (F c)))

/-- The field of member `i` of a polynomial set; `comp` enumerates the components of its value shape. -/
noncomputable def PolySet.field {m : ℕ} {Cp : Type} [Fintype Cp] (phi : Fin N → MvPolynomial (Fin D) K)
    (comp : Cp → List ℕ) (S : PolySet K (Fin D → K) N m Cp) (i : Fin m) : List ℕ → MvPolynomial (Fin D) K :=
  fun c => ∑ cp, if comp cp = c then S.member phi i cp else 0

/-- Expansion function number `i` as the `ℕ`-indexed family `to_riesz` uses. -/
noncomputable def valOf (phi : Fin N → MvPolynomial (Fin D) K) (i : ℕ) (x : Fin D → K) : K :=
  if h : i < N then eval x (phi ⟨i, h⟩) else 0
noncomputable def derOf (phi : Fin N → MvPolynomial (Fin D) K) (α : List ℕ) (i : ℕ) (x : Fin D → K) : K :=
  if h : i < N then eval x (iterDeriv α (phi ⟨i, h⟩)) else 0

/-- C17/C19: the tables of the short-lived orthonormal set that `to_riesz` reads are the values and true
partial derivatives of the expansion functions. -/
theorem on_exp_tab_spec (hD : 1 ≤ D) (phi : Fin N → MvPolynomial (Fin D) K)
    (base : List (Fin D → K) → ℕ → ℕ → K) (hbase : BaseSpec phi base)
    (mats : List (Matrix (Fin N) (Fin N) K)) (hm : DmatSpec phi mats) :
    (onExpTab N D base mats).Spec D (valOf phi) (derOf phi) := by
  constructor
  · intro pts i j x hi hx
    have hi' : i < N := hi
    rw [valOf, dif_pos hi']
    exact hbase pts ⟨i, hi'⟩ j x hx
  · intro pts order α hα hs
    obtain ⟨res, h1, h2, h3, h4⟩ := tabulate_spec hD phi (onScalarSet N D base mats) rfl hbase hm pts order
    obtain ⟨T, hT⟩ : ∃ T, (α, T) ∈ res := by
      obtain ⟨p, hp, rfl⟩ := List.mem_map.1 ((h3 α).2 ⟨hα, hs⟩)
      exact ⟨p.2, hp⟩
    refine ⟨fun i j => if h : i < N then T ⟨i, h⟩ () j else 0, ?_, ?_⟩
    · apply Dict.get?_of_mem
      · unfold onExpTab
        rw [Dict.WF, Dict.keys]
        simp only [h1, Option.getD_some, List.map_map]
        exact h2
      · unfold onExpTab
        simp only [h1, Option.getD_some]
        exact List.mem_map.2 ⟨_, hT, rfl⟩
    · intro i j x hi hx
      have hi' : i < N := hi
      simp only [derOf, dif_pos hi']
      rw [h4 α T (Dict.get?_of_mem h2 hT) ⟨i, hi'⟩ () j x hx]
      congr 2
      unfold PolySet.member onScalarSet
      rw [Finset.sum_eq_single (⟨i, hi'⟩ : Fin N)]
      · simp
      · intro b _ hb; simp [Ne.symm hb]
      · simp

theorem iterDeriv_zero_poly (α : List ℕ) : iterDeriv α (0 : MvPolynomial (Fin D) K) = 0 := by
  have := iterDeriv_linear (K := K) (∅ : Finset ℕ) (fun _ => 0) (fun _ => (0 : MvPolynomial (Fin D) K)) α
  simpa using this

/-- A node is linear in the field. -/
theorem Functional.onField_sum (l : Functional K (Fin D → K)) {ι : Type} (T : Finset ι) (a : ι → K)
    (F : ι → List ℕ → MvPolynomial (Fin D) K) :
    l.onField (fun c => ∑ t ∈ T, C (a t) * F t c) = ∑ t ∈ T, a t * l.onField (F t) := by
  unfold Functional.onField
  rw [← Functional.apply_sum]
  simp only [iterDeriv_linear, map_sum, map_mul, eval_C]

/-- What `dualToRiesz` produces, for any polynomial set over the same expansion functions. -/
theorem riesz_on_field (phi : Fin N → MvPolynomial (Fin D) K) (E : ExpTab K (Fin D → K))
    (hnum : E.num = N) (hE : E.Spec D (valOf phi) (derOf phi))
    (nodes : List (Functional K (Fin D → K))) (hne : nodes ≠ []) (hwf : ∀ l ∈ nodes, l.WF D)
    (hord : (∃ l ∈ nodes, 0 < l.maxDerivOrder) ∨ ∀ l ∈ nodes, l.deriv = [])
    {m : ℕ} {Cp : Type} [Fintype Cp] (comp : Cp → List ℕ) (hcomp : Function.Injective comp)
    (S : PolySet K (Fin D → K) N m Cp) :
    ∃ M, dualToRiesz E nodes = some M ∧ ∀ (k : ℕ) l, nodes[k]? = some l → ∀ j : Fin m,
      ∑ c, ∑ i : Fin N, M (k, comp c, (i : ℕ)) * S.coeffs j c i = l.onField (S.field phi comp j) := by
  obtain ⟨M, h1, h2⟩ := dual_to_riesz_entry E D _ _ hE nodes hne hwf hord
  refine ⟨M, h1, fun k l hk j => ?_⟩
  obtain ⟨R, h3, h4⟩ := h2 k l hk
  obtain ⟨R', h5, h6⟩ := to_riesz_entry E D _ _ hE l (hwf l (List.mem_of_getElem? hk))
  rw [h3, Option.some.injEq] at h5
  subst h5
  have hent : ∀ (c : Cp) (i : Fin N), M (k, comp c, (i : ℕ)) =
      l.onField (fun c' => if comp c = c' then phi i else 0) := by
    intro c i
    rw [h4 _ _ (by rw [hnum]; exact i.2), h6 _ _ (by rw [hnum]; exact i.2)]
    unfold Functional.onField
    congr 1
    · funext c' x
      beta_reduce
      by_cases h : c' = comp c
      · rw [if_pos h, if_pos h.symm, valOf, dif_pos i.2]
      · rw [if_neg h, if_neg (Ne.symm h), map_zero]
    · funext α c' x
      beta_reduce
      by_cases h : c' = comp c
      · rw [if_pos h, if_pos h.symm, derOf, dif_pos i.2]
      · rw [if_neg h, if_neg (Ne.symm h), iterDeriv_zero_poly, map_zero]
  have hF : S.field phi comp j = fun c' => ∑ t : Cp × Fin N,
      C (S.coeffs j t.1 t.2) * (if comp t.1 = c' then phi t.2 else 0) := by
    funext c'
    unfold PolySet.field PolySet.member
    rw [Fintype.sum_prod_type]
    refine Finset.sum_congr rfl fun c _ => ?_
    by_cases h : comp c = c'
    · simp [h]
    · simp [h]
  rw [hF, Functional.onField_sum, Fintype.sum_prod_type]
  refine Finset.sum_congr rfl fun c _ => Finset.sum_congr rfl fun i _ => ?_
  rw [hent, mul_comm]

/-- Specification: the fields of two families span the same space. -/
def SameSpan {ι κ : Type} (F : ι → List ℕ → MvPolynomial (Fin D) K)
    (G : κ → List ℕ → MvPolynomial (Fin D) K) : Prop :=
  Submodule.span K (Set.range F) = Submodule.span K (Set.range G)

/-- Specification: `F` is the basis dual to `nodes`. -/
def Nodal {m : ℕ} (nodes : List (Functional K (Fin D → K))) (F : Fin m → List ℕ → MvPolynomial (Fin D) K) :
    Prop :=
  ∀ (i : ℕ) l, nodes[i]? = some l → ∀ j : Fin m, l.onField (F j) = if i = (j : ℕ) then 1 else 0

/-- The node values of the given polynomial set: the generalized Vandermonde matrix. -/
noncomputable def vandermonde {m : ℕ} (nodes : List (Functional K (Fin D → K)))
    (F : Fin m → List ℕ → MvPolynomial (Fin D) K) : Matrix (Fin m) (Fin m) K :=
  Matrix.of fun i j => match nodes[(i : ℕ)]? with
    | some l => l.onField (F j)
    | none => 0

theorem smul_field (a : K) (F : List ℕ → MvPolynomial (Fin D) K) (c : List ℕ) : (a • F) c = C a * F c := by
  rw [Pi.smul_apply, smul_eq_C_mul]

/-- C18: if the generalized Vandermonde matrix is invertible, `CiarletElement(poly_set, dual)` succeeds,
its basis is dual to the nodes and spans the space of `poly_set`; value shape arbitrary. -/
theorem ciarlet_nodal (phi : Fin N → MvPolynomial (Fin D) K) (E : ExpTab K (Fin D → K))
    (hnum : E.num = N) (hE : E.Spec D (valOf phi) (derOf phi))
    (nodes : List (Functional K (Fin D → K))) (hne : nodes ≠ []) (hwf : ∀ l ∈ nodes, l.WF D)
    (hord : (∃ l ∈ nodes, 0 < l.maxDerivOrder) ∨ ∀ l ∈ nodes, l.deriv = [])
    {m : ℕ} {Cp : Type} [Fintype Cp] (comp : Cp → List ℕ) (hcomp : Function.Injective comp)
    (S : PolySet K (Fin D → K) N m Cp) (hlen : nodes.length = m)
    (hV : (vandermonde nodes (S.field phi comp)).det ≠ 0) :
    ∃ S', ciarletElement E comp S nodes = some S' ∧ S'.base = S.base ∧ S'.dmats = S.dmats ∧ S'.sd = S.sd ∧
      Nodal nodes (S'.field phi comp) ∧ SameSpan (S'.field phi comp) (S.field phi comp) := by
  obtain ⟨M, hM1, hM2⟩ := riesz_on_field phi E hnum hE nodes hne hwf hord comp hcomp S
  set A : Matrix (Fin m) (Cp × Fin N) K := Matrix.of fun i ck => M ((i : ℕ), comp ck.1, (ck.2 : ℕ)) with hA
  set B : Matrix (Fin m) (Cp × Fin N) K := Matrix.of fun i ck => S.coeffs i ck.1 ck.2 with hB
  have hAB : A * B.transpose = vandermonde nodes (S.field phi comp) := by
    ext i j
    obtain ⟨l, hl⟩ : ∃ l, nodes[(i : ℕ)]? = some l := by
      rw [List.getElem?_eq_getElem (by omega)]; exact ⟨_, rfl⟩
    rw [vandermonde, Matrix.of_apply, hl, Matrix.mul_apply, Fintype.sum_prod_type]
    exact hM2 i l hl j
  have hu : IsUnit (A * B.transpose).det := by rw [hAB]; exact isUnit_iff_ne_zero.2 hV
  set V := A * B.transpose with hVdef
  have hc : ciarletCoeffs (n := nodes.length) (fun i c k => M ((i : ℕ), comp c, (k : ℕ))) S.coeffs =
      some fun i c k => (V⁻¹.transpose * B) i (c, k) := by
    unfold ciarletCoeffs
    rw [dif_pos hlen]
    exact if_pos hu
  have hfield : ∀ j : Fin m, PolySet.field phi comp
      { S with coeffs := fun i c k => (V⁻¹.transpose * B) i (c, k) } j =
      fun c' => ∑ t : Fin m, C (V⁻¹ t j) * S.field phi comp t c' := by
    intro j
    funext c'
    unfold PolySet.field PolySet.member
    simp only [Finset.mul_sum]
    rw [Finset.sum_comm]
    refine Finset.sum_congr rfl fun c _ => ?_
    by_cases h : comp c = c'
    · simp only [h, if_true, Matrix.mul_apply, Matrix.transpose_apply, hB, Matrix.of_apply, map_sum,
        Finset.sum_mul, Finset.mul_sum, map_mul]
      rw [Finset.sum_comm]
      refine Finset.sum_congr rfl fun _ _ => Finset.sum_congr rfl fun _ _ => by ring
    · simp [h]
  refine ⟨{ S with coeffs := fun i c k => (V⁻¹.transpose * B) i (c, k) }, ?_, rfl, rfl, rfl, ?_, ?_⟩
  · unfold ciarletElement
    simp only [hM1, Option.bind_eq_bind, Option.bind_some, hc]
    rfl
  · intro i l hl j
    rw [hfield, Functional.onField_sum]
    have hi : i < m := by
      obtain ⟨h, _⟩ := List.getElem?_eq_some_iff.1 hl; omega
    have h1 := congrFun (congrFun (Matrix.mul_nonsing_inv _ hu) ⟨i, hi⟩) j
    rw [Matrix.mul_apply, Matrix.one_apply, hAB] at h1
    simp only [Fin.ext_iff] at h1
    rw [← h1]
    refine Finset.sum_congr rfl fun t _ => ?_
    rw [vandermonde, Matrix.of_apply]
    simp only [hl]
    rw [hAB, mul_comm]; rfl
  · apply le_antisymm
    · rw [Submodule.span_le]
      rintro _ ⟨j, rfl⟩
      have : PolySet.field phi comp { S with coeffs := fun i c k => (V⁻¹.transpose * B) i (c, k) } j =
          ∑ t : Fin m, V⁻¹ t j • S.field phi comp t := by
        rw [hfield]; funext c'
        rw [Finset.sum_apply]
        exact Finset.sum_congr rfl fun t _ => (smul_field _ _ _).symm
      rw [this]
      exact Submodule.sum_mem _ fun t _ => Submodule.smul_mem _ _ (Submodule.subset_span ⟨t, rfl⟩)
    · rw [Submodule.span_le]
      rintro _ ⟨j, rfl⟩
      have : S.field phi comp j = ∑ t : Fin m, V t j •
          PolySet.field phi comp { S with coeffs := fun i c k => (V⁻¹.transpose * B) i (c, k) } t := by
        funext c'
        rw [Finset.sum_apply]
        simp only [smul_field, hfield, Finset.mul_sum]
        rw [Finset.sum_comm]
        have h1 := Matrix.nonsing_inv_mul _ hu
        rw [Finset.sum_eq_single j]
        · have h2 := congrFun (congrFun h1 j) j
          rw [Matrix.mul_apply, Matrix.one_apply_eq] at h2
          simp only [← mul_assoc, ← map_mul, ← Finset.sum_mul, ← map_sum]
          rw [show ∑ x, V x j * V⁻¹ j x = 1 by rw [← h2]; exact Finset.sum_congr rfl fun _ _ => mul_comm _ _]
          simp
        · intro s _ hs
          have h2 := congrFun (congrFun h1 s) j
          rw [Matrix.mul_apply, Matrix.one_apply_ne hs] at h2
          simp only [← mul_assoc, ← map_mul, ← Finset.sum_mul, ← map_sum]
          rw [show ∑ x, V x j * V⁻¹ s x = 0 by rw [← h2]; exact Finset.sum_congr rfl fun _ _ => mul_comm _ _]
          simp
        · simp
      rw [this]
      exact Submodule.sum_mem _ fun t _ => Submodule.smul_mem _ _ (Submodule.subset_span ⟨t, rfl⟩)

/-- C18: the constructor fails when the matrix is singular, or the number of nodes differs from the number
of members. -/
theorem ciarlet_singular (phi : Fin N → MvPolynomial (Fin D) K) (E : ExpTab K (Fin D → K))
    (hnum : E.num = N) (hE : E.Spec D (valOf phi) (derOf phi))
    (nodes : List (Functional K (Fin D → K))) (hne : nodes ≠ []) (hwf : ∀ l ∈ nodes, l.WF D)
    (hord : (∃ l ∈ nodes, 0 < l.maxDerivOrder) ∨ ∀ l ∈ nodes, l.deriv = [])
    {m : ℕ} {Cp : Type} [Fintype Cp] (comp : Cp → List ℕ) (hcomp : Function.Injective comp)
    (S : PolySet K (Fin D → K) N m Cp)
    (hV : nodes.length ≠ m ∨ (vandermonde nodes (S.field phi comp)).det = 0) :
    ciarletElement E comp S nodes = none := by
  obtain ⟨M, hM1, hM2⟩ := riesz_on_field phi E hnum hE nodes hne hwf hord comp hcomp S
  unfold ciarletElement
  simp only [hM1, Option.bind_eq_bind, Option.bind_some]
  rw [Option.bind_eq_none_iff]
  intro new hnew
  exfalso
  unfold ciarletCoeffs at hnew
  by_cases hlen : nodes.length = m
  · rw [dif_pos hlen] at hnew
    have hdet := hV.resolve_left (fun h => h hlen)
    simp only at hnew
    rw [if_neg] at hnew
    · exact Option.some_ne_none _ hnew.symm
    · rw [isUnit_iff_ne_zero, not_not, ← hdet]
      congr 1
      ext i j
      obtain ⟨l, hl⟩ : ∃ l, nodes[(i : ℕ)]? = some l := by
        rw [List.getElem?_eq_getElem (by omega)]; exact ⟨_, rfl⟩
      rw [vandermonde, Matrix.of_apply, hl, Matrix.mul_apply, Fintype.sum_prod_type]
      exact hM2 i l hl j
  · rw [dif_neg hlen] at hnew
    exact Option.some_ne_none _ hnew.symm

/-- C18: the nodal basis of a space is unique, so the element does not depend on which basis of the space
was supplied. -/
theorem nodal_unique {m : ℕ} (nodes : List (Functional K (Fin D → K))) (hlen : nodes.length = m)
    (F G : Fin m → List ℕ → MvPolynomial (Fin D) K) (hF : Nodal nodes F) (hG : Nodal nodes G)
    (hspan : SameSpan F G) : F = G := by
  funext j
  have hj : G j ∈ Submodule.span K (Set.range F) := by
    rw [hspan]; exact Submodule.subset_span ⟨j, rfl⟩
  obtain ⟨a, ha⟩ := (Submodule.mem_span_range_iff_exists_fun K).1 hj
  have hval : ∀ i : Fin m, a i = if (i : ℕ) = j then 1 else 0 := by
    intro i
    obtain ⟨l, hl⟩ : ∃ l, nodes[(i : ℕ)]? = some l := by
      rw [List.getElem?_eq_getElem (by omega)]; exact ⟨_, rfl⟩
    rw [← hG i l hl j]
    have : G j = fun c => ∑ t : Fin m, C (a t) * F t c := by
      rw [← ha]; funext c
      rw [Finset.sum_apply]
      exact Finset.sum_congr rfl fun t _ => smul_field _ _ _
    rw [this, Functional.onField_sum, Finset.sum_eq_single i]
    · rw [hF i l hl i]; simp
    · intro t _ ht
      rw [hF i l hl t, if_neg (fun h => ht (Fin.ext h.symm)), mul_zero]
    · simp
  rw [← ha, Finset.sum_eq_single j]
  · rw [hval]; simp
  · intro t _ ht
    rw [hval, if_neg (fun h => ht (Fin.ext h)), zero_smul]
  · simp

/-- C18: two polynomial sets spanning the same space (over possibly different expansions) give the same
basis functions. -/
theorem ciarlet_basis_independent {N₂ : ℕ} (phi : Fin N → MvPolynomial (Fin D) K)
    (phi₂ : Fin N₂ → MvPolynomial (Fin D) K) (E E₂ : ExpTab K (Fin D → K))
    (hnum : E.num = N) (hE : E.Spec D (valOf phi) (derOf phi))
    (hnum₂ : E₂.num = N₂) (hE₂ : E₂.Spec D (valOf phi₂) (derOf phi₂))
    (nodes : List (Functional K (Fin D → K))) (hne : nodes ≠ []) (hwf : ∀ l ∈ nodes, l.WF D)
    (hord : (∃ l ∈ nodes, 0 < l.maxDerivOrder) ∨ ∀ l ∈ nodes, l.deriv = [])
    {m : ℕ} {Cp : Type} [Fintype Cp] (comp : Cp → List ℕ) (hcomp : Function.Injective comp)
    (S : PolySet K (Fin D → K) N m Cp) (S₂ : PolySet K (Fin D → K) N₂ m Cp) (hlen : nodes.length = m)
    (hV : (vandermonde nodes (S.field phi comp)).det ≠ 0)
    (hV₂ : (vandermonde nodes (S₂.field phi₂ comp)).det ≠ 0)
    (hspan : SameSpan (S.field phi comp) (S₂.field phi₂ comp)) :
    ∃ S' S₂', ciarletElement E comp S nodes = some S' ∧ ciarletElement E₂ comp S₂ nodes = some S₂' ∧
      S'.field phi comp = S₂'.field phi₂ comp := by
  obtain ⟨S', h1, _, _, _, h2, h3⟩ := ciarlet_nodal phi E hnum hE nodes hne hwf hord comp hcomp S hlen hV
  obtain ⟨S₂', h4, _, _, _, h5, h6⟩ :=
    ciarlet_nodal phi₂ E₂ hnum₂ hE₂ nodes hne hwf hord comp hcomp S₂ hlen hV₂
  exact ⟨S', S₂', h1, h4, nodal_unique nodes hlen _ _ h2 h5 ((h3.trans hspan).trans h6.symm)⟩

theorem pointEval_onField (x : Fin D → K) (F : List ℕ → MvPolynomial (Fin D) K) :
    (pointEvaluation x : Functional K (Fin D → K)).onField F = eval x (F []) := by
  simp [pointEvaluation, Functional.onField, Functional.apply]

end

section
variable {K : Type} [Field K] [LinearOrder K] [IsStrictOrderedRing K] {D N : ℕ}

/-- C18/C20, end to end: for every degree `k >= 1`, every nondegenerate simplex and every expansion basis of
`P_k` (independent, degree at most `k`, the right number), the constructor of `Lagrange(cell, k)` does not
meet a singular matrix, and basis function `j` is 1 at node `j` and 0 at the other nodes. -/
theorem lagrange_ciarlet (s : SimplexCell (Fin D → K)) (hsd : s.sd = D) (hs : FullSimplex s)
    (hind : Nondegenerate K s) (hd : 1 ≤ D) (k : ℕ) (hk : 1 ≤ k) (hN : N = (k + D).choose D)
    (phi : Fin N → MvPolynomial (Fin D) K) (hdeg : ∀ i, (phi i).totalDegree ≤ k)
    (hli : LinearIndependent K phi) (base : List (Fin D → K) → ℕ → ℕ → K) (hbase : BaseSpec phi base)
    (mats : List (Matrix (Fin N) (Fin N) K)) (hm : DmatSpec phi mats)
    (nodes : List (Fin D → K)) (ids : EntityIds ℕ) (hdual : lagrangeDual K s k = some (nodes, ids)) :
    ∃ S', ciarletElement (onExpTab N D base mats) (fun _ : Unit => []) (onScalarSet N D base mats)
        (nodes.map pointEvaluation) = some S' ∧
      ∀ (i : ℕ) x, nodes[i]? = some x → ∀ j : Fin N,
        eval x (S'.member phi j ()) = if i = (j : ℕ) then 1 else 0 := by
  obtain ⟨nodes', ids', h1, h2⟩ := lagrange_num_nodes (K := K) s hs hind k hk (by omega)
  rw [hdual, Option.some.injEq, Prod.mk.injEq] at h1
  rw [← h1.1, hsd] at h2
  have hlen : nodes.length = N := by rw [h2, hN]
  have hpos : 0 < N := by rw [hN]; exact Nat.choose_pos (Nat.le_add_left _ _)
  have hmemb : ∀ j, (onScalarSet N D base mats).member phi j () = phi j := by
    intro j
    unfold PolySet.member onScalarSet
    rw [Finset.sum_eq_single j]
    · simp
    · intro b _ hb; simp [Ne.symm hb]
    · simp
  have hget : ∀ i : Fin N, nodes[(i : ℕ)]? = some (nodes.get (i.cast hlen.symm)) := fun i => by
    rw [List.getElem?_eq_getElem (by omega)]; rfl
  have hV : (vandermonde (nodes.map pointEvaluation)
      ((onScalarSet N D base mats).field phi (fun _ : Unit => []))).det ≠ 0 := by
    apply IsUnit.ne_zero
    apply collocation_isUnit k phi hdeg hli nodes hlen
    · intro p hp hz
      exact lagrange_unisolvent s hsd hs hind hd k hk nodes ids hdual p hp hz
    · intro i j
      rw [vandermonde, Matrix.of_apply, List.getElem?_map, hget]
      simp only [Option.map_some]
      rw [pointEval_onField]
      congr 1
      unfold PolySet.field
      simpa using hmemb j
  obtain ⟨S', h3, _, _, _, h4, _⟩ := ciarlet_nodal phi (onExpTab N D base mats) rfl
    (on_exp_tab_spec hd phi base hbase mats hm) (nodes.map pointEvaluation)
    (by intro h; rw [List.map_eq_nil_iff] at h; rw [h] at hlen; simp at hlen; omega)
    (by
      intro l hl
      obtain ⟨x, _, rfl⟩ := List.mem_map.1 hl
      exact ⟨by simp [pointEvaluation, Dict.WF, Dict.keys], by simp [pointEvaluation, Dict.WF, Dict.keys],
        by simp [pointEvaluation]⟩)
    (Or.inr (by
      intro l hl
      obtain ⟨x, _, rfl⟩ := List.mem_map.1 hl
      rfl))
    (fun _ : Unit => []) (fun _ _ _ => rfl) (onScalarSet N D base mats) (by simpa using hlen) hV
  refine ⟨S', h3, fun i x hx j => ?_⟩
  have := h4 i (pointEvaluation x) (by rw [List.getElem?_map, hx]; rfl) j
  rw [pointEval_onField] at this
  rw [← this]
  unfold PolySet.field
  simp

end

/-! ### Non-vacuity: the degree-one space on a line with expansion functions 1 and x -/

section example_line

noncomputable def exPhi : Fin 2 → MvPolynomial (Fin 1) ℚ := ![1, X 0]
def exBase (pts : List (Fin 1 → ℚ)) (i j : ℕ) : ℚ :=
  match pts[j]? with
  | some x => if i = 0 then 1 else x 0
  | none => 0
def exDv (_ : List (Fin 1 → ℚ)) (k _ : ℕ) (_ : Fin 1) : ℚ := if k = 0 then 0 else 1

theorem exBase_spec : BaseSpec exPhi exBase := by
  intro pts i j x h
  unfold exBase
  rw [h]
  fin_cases i <;> simp [exPhi]

theorem exDv_spec : DvSpec exPhi exDv := by
  intro pts i j x d h
  fin_cases d
  fin_cases i <;> simp [exPhi, exDv]

theorem exPhi_deg (i : Fin 2) : (exPhi i).totalDegree ≤ 1 := by
  fin_cases i <;> simp [exPhi]

theorem exPhi_li : LinearIndependent ℚ exPhi := by
  rw [Fintype.linearIndependent_iff]
  intro g hg i
  rw [Fin.sum_univ_two] at hg
  have h0 := congrArg (fun p => eval (fun _ => (0 : ℚ)) p) hg
  have h1 := congrArg (fun p => eval (fun _ => (1 : ℚ)) p) hg
  simp [exPhi] at h0 h1
  fin_cases i
  · exact h0
  · simp only [h0, zero_add] at h1; exact h1

/-- The hypotheses of `on_dmats_spec` and `tabulate_spec` are met: the collocation points of the code on
the UFC interval give derivative matrices. -/
example : ∃ pts mats, makePoints ℚ ((ufcInterval : CellData ℚ).toSimplex 1) 1 0 (1 + 1 + 1) = some pts ∧
    onDmats 2 1 1 pts exBase exDv = some mats ∧ DmatSpec exPhi mats := by
  obtain ⟨pts, h1, h2, h3⟩ := dmats_points_unisolvent (K := ℚ) ((ufcInterval : CellData ℚ).toSimplex 1) rfl
    proper_ufcInterval.2.1 proper_ufcInterval.2.2.1 le_rfl 1
  obtain ⟨mats, h4, h5⟩ := on_dmats_spec 1 exPhi exPhi_deg exPhi_li pts (by simpa using h2) h3
    exBase exBase_spec exDv exDv_spec
  exact ⟨pts, mats, h1, h4, h5⟩

/-- The hypotheses of `lagrange_ciarlet` (hence of `ciarlet_nodal`, `on_exp_tab_spec`, `to_riesz_entry` and
`dual_to_riesz_entry`) are met: the linear Lagrange element on the UFC interval. -/
example : ∃ nodes ids mats S', lagrangeDual ℚ ((ufcInterval : CellData ℚ).toSimplex 1) 1 = some (nodes, ids) ∧
    nodes.length = 2 ∧
    ciarletElement (onExpTab 2 1 exBase mats) (fun _ : Unit => []) (onScalarSet 2 1 exBase mats)
      (nodes.map pointEvaluation) = some S' ∧
    ∀ (i : ℕ) x, nodes[i]? = some x → ∀ j : Fin 2,
      eval x (S'.member exPhi j ()) = if i = (j : ℕ) then 1 else 0 := by
  obtain ⟨nodes, ids, h1, h2⟩ := lagrange_num_nodes (K := ℚ) ((ufcInterval : CellData ℚ).toSimplex 1)
    proper_ufcInterval.2.1 proper_ufcInterval.2.2.1 1 le_rfl le_rfl
  obtain ⟨pts, _, h4, h5⟩ := dmats_points_unisolvent (K := ℚ) ((ufcInterval : CellData ℚ).toSimplex 1) rfl
    proper_ufcInterval.2.1 proper_ufcInterval.2.2.1 le_rfl 1
  obtain ⟨mats, _, h6⟩ := on_dmats_spec 1 exPhi exPhi_deg exPhi_li pts (by simpa using h4) h5
    exBase exBase_spec exDv exDv_spec
  obtain ⟨S', h7, h8⟩ := lagrange_ciarlet ((ufcInterval : CellData ℚ).toSimplex 1) rfl
    proper_ufcInterval.2.1 proper_ufcInterval.2.2.1 le_rfl 1 le_rfl (by decide) exPhi exPhi_deg exPhi_li
    exBase exBase_spec mats h6 nodes ids h1
  exact ⟨nodes, ids, mats, S', h1, h2, h7, h8⟩

/-- A node with a derivative: the mean of the slope at two points, through the same tables. -/
example (mats : List (Matrix (Fin 2) (Fin 2) ℚ)) (h : DmatSpec exPhi mats) :
    ∃ R, Functional.toRiesz (onExpTab 2 1 exBase mats)
      (⟨[], [(fun _ => 0, [(1 / 2, [1], [])]), (fun _ => 1, [(1 / 2, [1], [])])]⟩ : Functional ℚ (Fin 1 → ℚ))
        = some R ∧ R ([], 1) = 1 := by
  obtain ⟨R, h1, h2⟩ := to_riesz_entry _ 1 _ _ (on_exp_tab_spec le_rfl exPhi exBase exBase_spec mats h)
    (⟨[], [(fun _ => 0, [(1 / 2, [1], [])]), (fun _ => 1, [(1 / 2, [1], [])])]⟩ : Functional ℚ (Fin 1 → ℚ))
    ⟨by simp [Dict.WF, Dict.keys],
      by
        simp only [Dict.WF, Dict.keys, List.map_cons, List.map_nil, List.nodup_cons, List.mem_singleton,
          List.not_mem_nil, not_false_eq_true, List.nodup_nil, and_true]
        intro h; exact absurd (congrFun h 0) (by norm_num),
      by simp; rintro _ _ _ _ rfl _; rfl⟩
  refine ⟨R, h1, ?_⟩
  rw [h2 [] 1 (by show 1 < 2; norm_num)]
  have e : iterDeriv [1] (exPhi 1) = 1 := by
    have := iterDeriv_succ (K := ℚ) (List.replicate 1 0) (0 : Fin 1) (by simp) (exPhi 1)
    rw [iterDeriv_zero] at this
    rw [show ([1] : List ℕ) = (List.replicate 1 0).set ((0 : Fin 1) : ℕ)
      ((List.replicate 1 0).getD ((0 : Fin 1) : ℕ) 0 + 1) from rfl, this]
    simp [exPhi]
  simp only [Functional.apply, List.map_nil, List.sum_nil, List.map_cons, if_true, zero_add, derOf]
  simp only [show (⟨1, by norm_num⟩ : Fin 2) = 1 from rfl, e]
  norm_num

end example_line
end FIAT
