/-
C64: `NodalEnrichedElement`.
-/
import Verif.Lemmas.NodalEnriched

namespace FIAT
open MvPolynomial
section
variable {D : ℕ} {Cp : Type} [Fintype Cp]

/-- Specification of the elements that `NodalEnrichedElement` combines: an element on the cell `s` whose polynomial set uses the expansion
set of its embedded degree on `s`, that has the nodal basis of the space `V` for its nodes, and whose dofs `0, 1, ...` are distributed
over the entities of the cell. -/
structure IsNodalPart (s : SimplexCell (Fin D → ℝ)) (comp : Cp → List ℕ) (V : Submodule ℝ (Cp → MvPolynomial (Fin D) ℝ))
    (p : NodalPart D Cp) : Prop where
  sd : p.el.sd = D
  base : p.el.base = expTab s.verts p.degree
  dmats : ∃ P, onPolynomialSet s p.degree = some P ∧ p.el.dmats = P.dmats
  pos : 1 ≤ p.dim
  len : p.nodes.length = p.dim
  wf : ∀ l ∈ p.nodes, l.WF D
  ord : (∃ l ∈ p.nodes, 0 < l.maxDerivOrder) ∨ ∀ l ∈ p.nodes, l.deriv = []
  nodal : IsNodalC comp (fun w => w ∈ V) p.nodes p.el
  ids : Topology.WF p.ids ∧ SameEntities s.topo p.ids ∧ DofsPartition p.ids p.dim

/-- Specification: a sum of functions, one from each space, is zero only if all of them are. -/
def DirectSum {n : ℕ} (V : Fin n → Submodule ℝ (Cp → MvPolynomial (Fin D) ℝ)) : Prop :=
  ∀ w : Fin n → Cp → MvPolynomial (Fin D) ℝ, (∀ i, w i ∈ V i) → ∑ i, w i = 0 → ∀ i, w i = 0

/-- Specification: the only function of `V` on which all `nodes` are zero is zero. -/
def SeparatesC (comp : Cp → List ℕ) (V : Submodule ℝ (Cp → MvPolynomial (Fin D) ℝ)) (nodes : List (Functional ℝ (Fin D → ℝ))) : Prop :=
  ∀ w ∈ V, (∀ l ∈ nodes, l.onField (fieldC comp w) = 0) → w = 0

theorem ciarlet_keeps {N m : ℕ} {E : ExpTab ℝ (Fin D → ℝ)} {comp : Cp → List ℕ} {S el : PolySet ℝ (Fin D → ℝ) N m Cp}
    {nodes : List (Functional ℝ (Fin D → ℝ))} (h : ciarletElement E comp S nodes = some el) :
    el.sd = S.sd ∧ el.base = S.base ∧ el.dmats = S.dmats := by
  unfold ciarletElement at h
  simp only [Option.bind_eq_bind, Option.bind_eq_some_iff] at h
  obtain ⟨M, -, new, -, e⟩ := h
  rw [show el = _ from (Option.some.inj e).symm]
  exact ⟨rfl, rfl, rfl⟩

private theorem nodal_enriched_core (hD : D = 1 ∨ D = 2 ∨ D = 3) (s : SimplexCell (Fin D → ℝ)) (hs : ProperSimplex ℝ s)
    (hv : Increasing fun i : Fin (D + 1) => s.v i) (comp : Cp → List ℕ) {n : ℕ} (hn : 0 < n)
    (P : Fin n → NodalPart D Cp) (V : Fin n → Submodule ℝ (Cp → MvPolynomial (Fin D) ℝ)) (h : ∀ i, IsNodalPart s comp (V i) (P i)) :
    ∃ i0, (∀ i, (P i).degree ≤ (P i0).degree) ∧
      ∃ (S : PolySet ℝ (Fin D → ℝ) (((P i0).degree + D).choose D) ((List.ofFn P).map NodalPart.dim).sum Cp)
        (φ : Fin (((P i0).degree + D).choose D) → MvPolynomial (Fin D) ℝ) (ψ : (i : Fin n) → Fin (P i).dim → Cp → MvPolynomial (Fin D) ℝ)
        (c : Fin n → ℝ),
      nodalEnriched s comp (List.ofFn P) = (ciarletElement (onExpTab (((P i0).degree + D).choose D) D S.base S.dmats) comp S
        ((List.ofFn P).flatMap NodalPart.nodes)).bind (fun el => some ⟨(P i0).degree, ((List.ofFn P).map NodalPart.dim).sum, el,
          (List.ofFn P).flatMap NodalPart.nodes, mergeEntityIds ((List.ofFn P).map fun (p : NodalPart D Cp) => (p.dim, p.ids))⟩) ∧
      S.sd = D ∧ S.base = expTab s.verts (P i0).degree ∧ S.dmats = (P i0).el.dmats ∧ BaseSpec φ S.base ∧ DmatSpec φ S.dmats ∧
      (∀ i, c i ≠ 0) ∧
      (∀ i, LinearIndependent ℝ (ψ i) ∧ Submodule.span ℝ (Set.range (ψ i)) = V i) ∧
      ∀ x : (i : Fin n) × Fin (P i).dim, S.member φ (Fin.cast (sum_dims P).symm (finSigmaFinEquiv x)) = c x.1 • ψ x.1 x.2 := by
  have hD1 : 1 ≤ D := by omega
  obtain ⟨φ, hφ, hk⟩ := common_basis hD s hs hv
  choose c mats hc hon hbase hdm using hk
  have hne : List.ofFn P ≠ [] := by
    intro e
    have := congrArg List.length e
    simp at this
    omega
  obtain ⟨b, b1, b2, b3⟩ := last_largest_spec _ hne
  obtain ⟨i0, rfl⟩ := (List.mem_ofFn' P b).1 b2
  have hdeg : ∀ i, (P i).degree ≤ (P i0).degree := fun i => (expDim_le_iff hD1 _ _).1 (b3 _ ((List.mem_ofFn' P _).2 ⟨i, rfl⟩))
  have hmats : ∀ i, (P i).el.dmats = mats (P i).degree := by
    intro i
    obtain ⟨Q, q1, q2⟩ := (h i).dmats
    rw [hon] at q1
    rw [q2, ← Option.some.inj q1]
    rfl
  have hmerge : mergeDmats (List.ofFn P) (P i0) = some (P i0).el.dmats := by
    unfold mergeDmats
    rw [if_pos]
    intro i B hB q hq
    obtain ⟨j, rfl⟩ := (List.mem_ofFn' P q).1 hq
    rw [hmats] at hB ⊢
    have hi : i < D := by
      rw [← (hdm (P i0).degree).1]
      exact (List.getElem?_eq_some_iff.1 hB).1
    have hi' : i < (mats (P j).degree).length := by rw [(hdm _).1]; exact hi
    refine ⟨_, List.getElem?_eq_getElem hi', fun a ha b hb => ?_⟩
    have e := dmat_block (b3 _ hq) φ ((hφ (P i0).degree) _ le_rfl).1 ⟨i, hi⟩
      ((hdm (P j).degree).2 ⟨i, hi⟩ _ (List.getElem?_eq_getElem hi')) ((hdm (P i0).degree).2 ⟨i, hi⟩ B hB) a b ha hb
    refine (le_of_eq ((congrArg abs (sub_eq_zero.2 e)).trans abs_zero)).trans ?_
    positivity
  -- the basis functions of the parts
  have hψ : ∀ i, ∃ ψ : Fin (P i).dim → Cp → MvPolynomial (Fin D) ℝ, LinearIndependent ℝ ψ ∧ Submodule.span ℝ (Set.range ψ) = V i ∧
      ψ = (P i).el.member fun j : Fin (((P i).degree + D).choose D) => c (P i).degree • φ j := by
    intro i
    obtain ⟨ψ, p1, p2, p3, p4⟩ := (h i).nodal
    refine ⟨ψ, ?_, ?_, ?_⟩
    · rw [Fintype.linearIndependent_iff]
      intro a ha j
      obtain ⟨l, hl⟩ : ∃ l, (P i).nodes[(j : ℕ)]? = some l := ⟨_, List.getElem?_eq_getElem (by rw [(h i).len]; exact j.2)⟩
      have h7 := onFieldC_comb comp l a ψ
      rw [ha] at h7
      have h8 : l.onField (fieldC comp (0 : Cp → MvPolynomial (Fin D) ℝ)) = 0 := by
        have := onFieldC_comb comp l (0 : Fin 0 → ℝ) (fun _ => 0)
        simpa using this
      rw [h8, Finset.sum_eq_single j] at h7
      · rw [p3 _ l hl, if_pos rfl, mul_one] at h7; exact h7.symm
      · intro b _ hb
        rw [p3 _ l hl, if_neg (fun h => hb (Fin.ext h.symm)), mul_zero]
      · simp
    · refine le_antisymm (Submodule.span_le.2 ?_) p2
      rintro _ ⟨j, rfl⟩
      exact p1 j
    · have hb' : BaseSpec (fun j : Fin (((P i).degree + D).choose D) => c (P i).degree • φ j) (P i).el.base := by
        rw [(h i).base]; exact hbase _
      have hd' : DmatSpec (fun j : Fin (((P i).degree + D).choose D) => c (P i).degree • φ j) (P i).el.dmats := by
        rw [hmats]; exact dmat_unscale _ (hdm _)
      funext j u
      refine MvPolynomial.funext fun x => ?_
      obtain ⟨res, r1, -, r2, r3⟩ := tabulate_spec hD1 _ (P i).el (h i).sd hb' hd' [x] 0
      obtain ⟨res', q1, q2, q3⟩ := p4 [x] 0
      rw [r1] at q1
      obtain rfl := Option.some.inj q1
      have hin : List.replicate D 0 ∈ Dict.keys res := (r2 _).2 ⟨by simp, by simp⟩
      obtain ⟨T, hT⟩ := Option.isSome_iff_exists.1 (Dict.get?_isSome_iff.2 hin)
      have e1 := r3 _ T hT j u 0 x rfl
      have e2 := q3 _ T hT j u 0 x rfl
      have e3 : ∀ p : MvPolynomial (Fin D) ℝ, iterDeriv (List.replicate D 0) p = p := by
        intro p
        unfold iterDeriv
        simp
      rw [e3] at e1 e2
      rw [← e1, ← e2]
  choose ψ hψ1 hψ2 hψ3 using hψ
  refine ⟨i0, hdeg, ⟨D, expTab s.verts (P i0).degree, fun i u k => mergeCoeffs ((List.ofFn P).map fun (p : NodalPart D Cp) =>
      (p.dim, p.expDim, p.rows)) i u k, (P i0).el.dmats⟩, fun j => c (P i0).degree • φ j, ψ, fun i => c (P i0).degree / c (P i).degree, ?_, rfl,
    rfl, rfl, hbase _, by rw [hmats]; exact dmat_unscale _ (hdm _), fun i => div_ne_zero (hc _) (hc _), fun i => ⟨hψ1 i, hψ2 i⟩, fun x => ?_⟩
  · unfold nodalEnriched
    rw [b1]
    simp only [Option.bind_eq_bind, Option.bind_some]
    rw [hmerge]
    simp only [Option.bind_some]
  · funext u
    rw [hψ3]
    have hle := hdeg x.1
    have hle' : (P x.1).expDim ≤ (P i0).expDim := b3 _ ((List.mem_ofFn' P _).2 ⟨x.1, rfl⟩)
    simp only [PolySet.member, Pi.smul_apply, Fin.val_cast, merged_rows P x u]
    have e1 : ∀ f : ℕ → MvPolynomial (Fin D) ℝ, ∑ j : Fin (((P i0).degree + D).choose D), f j = ∑ j ∈ Finset.range (P i0).expDim, f j :=
      fun f => Fin.sum_univ_eq_sum_range f _
    have e2 : ∀ f : ℕ → MvPolynomial (Fin D) ℝ, ∑ j : Fin (((P x.1).degree + D).choose D), f j = ∑ j ∈ Finset.range (P x.1).expDim, f j :=
      fun f => Fin.sum_univ_eq_sum_range f _
    have e3 := e1 fun k => C (if h : k < (P x.1).expDim then (P x.1).el.coeffs x.2 u ⟨k, h⟩ else 0) * c (P i0).degree • φ k
    have e4 := e2 fun k => C (if h : k < (P x.1).expDim then (P x.1).el.coeffs x.2 u ⟨k, h⟩ else 0) * c (P i0).degree • φ k
    refine e3.trans ?_
    rw [← Finset.sum_subset (Finset.range_subset_range.2 hle'), ← e4]
    · rw [Finset.smul_sum]
      refine Finset.sum_congr rfl fun k _ => ?_
      have hk : (k : ℕ) < (P x.1).expDim := k.2
      rw [dif_pos hk, mul_smul_comm, mul_smul_comm, smul_smul, div_mul_cancel₀ _ (hc _)]
    · intro j _ hj
      rw [Finset.mem_range] at hj
      rw [dif_neg hj, C_0, zero_mul]

/-- The merged functions: linear independence and span. -/
private theorem merged_family {n : ℕ} {d : Fin n → ℕ} {M : ℕ} (e : ((i : Fin n) × Fin (d i)) ≃ Fin M)
    (V : Fin n → Submodule ℝ (Cp → MvPolynomial (Fin D) ℝ)) (ψ : (i : Fin n) → Fin (d i) → Cp → MvPolynomial (Fin D) ℝ) (c : Fin n → ℝ)
    (hc : ∀ i, c i ≠ 0) (hψ : ∀ i, LinearIndependent ℝ (ψ i) ∧ Submodule.span ℝ (Set.range (ψ i)) = V i)
    (F : Fin M → Cp → MvPolynomial (Fin D) ℝ) (hF : ∀ x, F (e x) = c x.1 • ψ x.1 x.2) :
    (LinearIndependent ℝ F ↔ DirectSum V) ∧ Submodule.span ℝ (Set.range F) = ⨆ i, V i := by
  have hmem : ∀ i j, ψ i j ∈ V i := fun i j => by rw [← (hψ i).2]; exact Submodule.subset_span ⟨j, rfl⟩
  have hsum : ∀ a : Fin M → ℝ, ∑ r, a r • F r = ∑ i, ∑ j, (a (e ⟨i, j⟩) * c i) • ψ i j := by
    intro a
    rw [← e.sum_comp, Fintype.sum_sigma]
    refine Finset.sum_congr rfl fun i _ => Finset.sum_congr rfl fun j _ => ?_
    rw [hF, smul_smul]
  refine ⟨⟨fun hli w hw h0 => ?_, fun hdir => ?_⟩, ?_⟩
  · have hw' : ∀ i, ∃ b : Fin (d i) → ℝ, ∑ j, b j • ψ i j = w i := fun i => by
      have := hw i
      rw [← (hψ i).2, Submodule.mem_span_range_iff_exists_fun ℝ] at this
      exact this
    choose b hb using hw'
    obtain ⟨β, hβ⟩ : ∃ β : ((i : Fin n) × Fin (d i)) → ℝ, ∀ i j, β ⟨i, j⟩ = b i j / c i := ⟨fun x => b x.1 x.2 / c x.1, fun i j => rfl⟩
    have h1 := hsum fun r => β (e.symm r)
    have h2 : ∑ i, ∑ j, ((fun r => β (e.symm r)) (e ⟨i, j⟩) * c i) • ψ i j = 0 := by
      rw [← h0]
      refine Finset.sum_congr rfl fun i _ => ?_
      rw [← hb]
      refine Finset.sum_congr rfl fun j _ => ?_
      simp only [Equiv.symm_apply_apply]
      rw [hβ, div_mul_cancel₀ _ (hc i)]
    rw [h2] at h1
    have h3 := Fintype.linearIndependent_iff.1 hli _ h1
    intro i
    rw [← hb]
    refine Finset.sum_eq_zero fun j _ => ?_
    have h4 := h3 (e ⟨i, j⟩)
    simp only [Equiv.symm_apply_apply, hβ, div_eq_zero_iff, hc i, or_false] at h4
    rw [h4, zero_smul]
  · rw [Fintype.linearIndependent_iff]
    intro a ha r
    rw [hsum] at ha
    have h1 := hdir (fun i => ∑ j, (a (e ⟨i, j⟩) * c i) • ψ i j)
      (fun i => Submodule.sum_mem _ fun j _ => Submodule.smul_mem _ _ (hmem i j)) ha
    have h2 := Fintype.linearIndependent_iff.1 (hψ (e.symm r).1).1 _ (h1 (e.symm r).1) (e.symm r).2
    have h3 : e ⟨(e.symm r).1, (e.symm r).2⟩ = r := e.apply_symm_apply r
    rw [h3] at h2
    exact (mul_eq_zero.1 h2).resolve_right (hc _)
  · apply le_antisymm
    · rw [Submodule.span_le]
      rintro _ ⟨r, rfl⟩
      obtain ⟨x, rfl⟩ := e.surjective r
      rw [hF]
      exact Submodule.smul_mem _ _ (Submodule.mem_iSup_of_mem x.1 (hmem x.1 x.2))
    · refine iSup_le fun i => ?_
      rw [← (hψ i).2, Submodule.span_le]
      rintro _ ⟨j, rfl⟩
      have : ψ i j = (c i)⁻¹ • F (e ⟨i, j⟩) := by
        rw [hF, smul_smul, inv_mul_cancel₀ (hc i), one_smul]
      rw [this]
      exact Submodule.smul_mem _ _ (Submodule.subset_span ⟨_, rfl⟩)

/-- C64: `NodalEnrichedElement(e1, ..., en)` of nodal elements on one cell can be constructed if and only if their spaces form a direct
sum and the nodes of all of them together separate the functions of the sum. -/
theorem nodal_enriched_iff [DecidableEq Cp] (hD : D = 1 ∨ D = 2 ∨ D = 3) (s : SimplexCell (Fin D → ℝ)) (hs : ProperSimplex ℝ s)
    (hv : Increasing fun i : Fin (D + 1) => s.v i) (comp : Cp → List ℕ) (hcomp : Function.Injective comp) {n : ℕ} (hn : 0 < n)
    (P : Fin n → NodalPart D Cp) (V : Fin n → Submodule ℝ (Cp → MvPolynomial (Fin D) ℝ)) (h : ∀ i, IsNodalPart s comp (V i) (P i)) :
    (∃ r, nodalEnriched s comp (List.ofFn P) = some r) ↔
      DirectSum V ∧ SeparatesC comp (⨆ i, V i) ((List.ofFn P).flatMap NodalPart.nodes) := by
  have hD1 : 1 ≤ D := by omega
  obtain ⟨i0, hdeg, S, φ, ψ, c, h1, h2, h3, h4, h5, h6, h7, h8, h9⟩ := nodal_enriched_core hD s hs hv comp hn P V h
  obtain ⟨f1, f2⟩ := merged_family ((finSigmaFinEquiv (n := fun i => (P i).dim)).trans (finCongr (sum_dims P).symm)) V ψ c h7 h8
    (S.member φ) h9
  have hlen := merged_length P fun i => (h i).len
  have hmm : ∀ l, l ∈ (List.ofFn P).flatMap NodalPart.nodes ↔ ∃ i, l ∈ (P i).nodes := by
    intro l
    rw [List.mem_flatMap]
    constructor
    · rintro ⟨p, hp, hl⟩
      obtain ⟨i, rfl⟩ := (List.mem_ofFn' P p).1 hp
      exact ⟨i, hl⟩
    · rintro ⟨i, hl⟩
      exact ⟨_, (List.mem_ofFn' P _).2 ⟨i, rfl⟩, hl⟩
  have hwf : ∀ l ∈ (List.ofFn P).flatMap NodalPart.nodes, l.WF D := by
    intro l hl
    obtain ⟨i, hi⟩ := (hmm l).1 hl
    exact (h i).wf l hi
  have hord : (∃ l ∈ (List.ofFn P).flatMap NodalPart.nodes, 0 < l.maxDerivOrder) ∨
      ∀ l ∈ (List.ofFn P).flatMap NodalPart.nodes, l.deriv = [] := by
    by_cases hx : ∃ i, ∃ l ∈ (P i).nodes, 0 < l.maxDerivOrder
    · obtain ⟨i, l, hl, hl'⟩ := hx
      exact Or.inl ⟨l, (hmm l).2 ⟨i, hl⟩, hl'⟩
    · right
      intro l hl
      obtain ⟨i, hi⟩ := (hmm l).1 hl
      exact ((h i).ord.resolve_left fun hx' => hx ⟨i, hx'⟩) l hi
  have hpos : 1 ≤ ((List.ofFn P).map NodalPart.dim).sum := by
    rw [sum_dims]
    exact (h ⟨0, hn⟩).pos.trans (Finset.single_le_sum (f := fun i => (P i).dim) (fun _ _ => Nat.zero_le _) (Finset.mem_univ _))
  constructor
  · rintro ⟨r, hr⟩
    by_contra hcon
    have hdet : (vandermonde ((List.ofFn P).flatMap NodalPart.nodes) (S.field φ comp)).det = 0 := by
      rw [← Matrix.exists_mulVec_eq_zero_iff]
      have hx : ∃ x : Fin ((List.ofFn P).map NodalPart.dim).sum → ℝ, x ≠ 0 ∧
          ∀ l ∈ (List.ofFn P).flatMap NodalPart.nodes, l.onField (fieldC comp (∑ i, x i • S.member φ i)) = 0 := by
        by_cases hdir : DirectSum V
        · have hsep : ¬ SeparatesC comp (⨆ i, V i) ((List.ofFn P).flatMap NodalPart.nodes) := fun hh => hcon ⟨hdir, hh⟩
          unfold SeparatesC at hsep
          push Not at hsep
          obtain ⟨w, hw, hw0, hwne⟩ := hsep
          rw [← f2, Submodule.mem_span_range_iff_exists_fun ℝ] at hw
          obtain ⟨x, rfl⟩ := hw
          refine ⟨x, ?_, hw0⟩
          rintro rfl
          exact hwne (by simp)
        · rw [← f1, Fintype.linearIndependent_iff] at hdir
          push Not at hdir
          obtain ⟨x, hx, i, hi⟩ := hdir
          refine ⟨x, fun e => hi (by rw [e]; rfl), fun l _ => ?_⟩
          rw [hx]
          have := onFieldC_comb comp l (0 : Fin 0 → ℝ) (fun _ => 0)
          simpa using this
      obtain ⟨x, hx, hx0⟩ := hx
      refine ⟨x, hx, ?_⟩
      funext i
      rw [Matrix.mulVec, dotProduct, Pi.zero_apply]
      have hi : (i : ℕ) < ((List.ofFn P).flatMap NodalPart.nodes).length := by rw [hlen]; exact i.2
      have := hx0 _ (List.getElem_mem hi)
      rw [onFieldC_comb] at this
      rw [← this]
      refine Finset.sum_congr rfl fun j _ => ?_
      rw [vandermonde, Matrix.of_apply]
      simp only [List.getElem?_eq_getElem hi]
      rw [show S.field φ comp j = fieldC comp (S.member φ j) from by funext c; unfold PolySet.field fieldC; rfl]
      ring
    rw [h1, ciarlet_singular φ _ rfl (on_exp_tab_spec hD1 φ S.base h5 S.dmats h6) _ (by
      intro e; rw [e] at hlen; simp only [List.length_nil] at hlen; omega) hwf hord comp hcomp S (Or.inr hdet)] at hr
    exact absurd hr (by simp)
  · rintro ⟨hdir, hsep⟩
    obtain ⟨el, e1, -⟩ := any_element_nodal hD1 φ comp hcomp S h2 h5 h6 (fun w => w ∈ ⨆ i, V i) (f1.2 hdir)
      (fun w => by rw [f2]) _ hlen hpos hwf hord (fun w hw hz => hsep w hw hz)
    exact ⟨_, by rw [h1, e1]; rfl⟩

/-- C64: the element that `NodalEnrichedElement` constructs is again a nodal element on the cell: its space is the sum of the spaces, its
nodes are the nodes of the elements in order, its basis is dual to them, and every entity has the dofs of all elements, renumbered. -/
theorem nodal_enriched_spec [DecidableEq Cp] (hD : D = 1 ∨ D = 2 ∨ D = 3) (s : SimplexCell (Fin D → ℝ)) (hs : ProperSimplex ℝ s)
    (hv : Increasing fun i : Fin (D + 1) => s.v i) (comp : Cp → List ℕ) (hcomp : Function.Injective comp) {n : ℕ} (hn : 0 < n)
    (P : Fin n → NodalPart D Cp) (V : Fin n → Submodule ℝ (Cp → MvPolynomial (Fin D) ℝ)) (h : ∀ i, IsNodalPart s comp (V i) (P i))
    {r : NodalPart D Cp} (hr : nodalEnriched s comp (List.ofFn P) = some r) :
    IsNodalPart s comp (⨆ i, V i) r ∧ r.nodes = (List.ofFn P).flatMap NodalPart.nodes ∧ r.dim = ∑ i, (P i).dim ∧
      (∀ i, (P i).degree ≤ r.degree) ∧ (∃ i, (P i).degree = r.degree) ∧
      Concatenates s.topo (List.ofFn fun i => ((P i).dim, (P i).ids)) r.ids := by
  have hD1 : 1 ≤ D := by omega
  obtain ⟨hdir, hsep⟩ := (nodal_enriched_iff hD s hs hv comp hcomp hn P V h).1 ⟨r, hr⟩
  obtain ⟨i0, hdeg, S, φ, ψ, c, h1, h2, h3, h4, h5, h6, h7, h8, h9⟩ := nodal_enriched_core hD s hs hv comp hn P V h
  obtain ⟨f1, f2⟩ := merged_family ((finSigmaFinEquiv (n := fun i => (P i).dim)).trans (finCongr (sum_dims P).symm)) V ψ c h7 h8
    (S.member φ) h9
  have hlen := merged_length P fun i => (h i).len
  have hmm : ∀ l, l ∈ (List.ofFn P).flatMap NodalPart.nodes ↔ ∃ i, l ∈ (P i).nodes := by
    intro l
    rw [List.mem_flatMap]
    constructor
    · rintro ⟨p, hp, hl⟩
      obtain ⟨i, rfl⟩ := (List.mem_ofFn' P p).1 hp
      exact ⟨i, hl⟩
    · rintro ⟨i, hl⟩
      exact ⟨_, (List.mem_ofFn' P _).2 ⟨i, rfl⟩, hl⟩
  have hwf : ∀ l ∈ (List.ofFn P).flatMap NodalPart.nodes, l.WF D := by
    intro l hl
    obtain ⟨i, hi⟩ := (hmm l).1 hl
    exact (h i).wf l hi
  have hord : (∃ l ∈ (List.ofFn P).flatMap NodalPart.nodes, 0 < l.maxDerivOrder) ∨
      ∀ l ∈ (List.ofFn P).flatMap NodalPart.nodes, l.deriv = [] := by
    by_cases hx : ∃ i, ∃ l ∈ (P i).nodes, 0 < l.maxDerivOrder
    · obtain ⟨i, l, hl, hl'⟩ := hx
      exact Or.inl ⟨l, (hmm l).2 ⟨i, hl⟩, hl'⟩
    · right
      intro l hl
      obtain ⟨i, hi⟩ := (hmm l).1 hl
      exact ((h i).ord.resolve_left fun hx' => hx ⟨i, hx'⟩) l hi
  have hpos : 1 ≤ ((List.ofFn P).map NodalPart.dim).sum := by
    rw [sum_dims]
    exact (h ⟨0, hn⟩).pos.trans (Finset.single_le_sum (f := fun i => (P i).dim) (fun _ _ => Nat.zero_le _) (Finset.mem_univ _))
  obtain ⟨el, e1, e2, e3, e4, -, -, e5⟩ := any_element_nodal hD1 φ comp hcomp S h2 h5 h6 (fun w => w ∈ ⨆ i, V i) (f1.2 hdir)
    (fun w => by rw [f2]) _ hlen hpos hwf hord (fun w hw hz => hsep w hw hz)
  rw [h1, e1] at hr
  have hr' := Option.some.inj hr
  subst hr'
  have hmap : (List.ofFn P).map (fun (p : NodalPart D Cp) => (p.dim, p.ids)) = List.ofFn fun i => ((P i).dim, (P i).ids) := by
    rw [List.map_ofFn]; rfl
  have hcat : Concatenates s.topo (List.ofFn fun i => ((P i).dim, (P i).ids))
      (mergeEntityIds ((List.ofFn P).map fun (p : NodalPart D Cp) => (p.dim, p.ids))) := by
    rw [hmap]
    refine merge_entity_ids_spec _ _ ?_ ?_
    · intro e
      have := congrArg List.length e
      simp at this
      omega
    · intro x hx
      obtain ⟨i, rfl⟩ := (List.mem_ofFn' _ x).1 hx
      exact (h i).ids
  refine ⟨⟨e2, e3.trans h3, ?_, hpos, hlen, hwf, hord, e5, merge_entity_ids_wf _, hcat.same, ?_⟩, rfl, sum_dims P, hdeg, ⟨i0, rfl⟩, hcat⟩
  · obtain ⟨Q, q1, q2⟩ := (h i0).dmats
    exact ⟨Q, q1, (e4.trans h4).trans q2⟩
  · have := hcat.part
    have e : (List.map Prod.fst (List.ofFn fun i => ((P i).dim, (P i).ids))).sum = ∑ i, (P i).dim := by
      rw [List.map_ofFn, List.sum_ofFn]; rfl
    rw [e] at this
    simp only
    rw [sum_dims]
    exact this

end
end FIAT
