/-
C68: continuity across the cells of a mesh, for Lagrange elements.
-/
import Verif.Props.ConformCurl
import Verif.Lemmas.Jets
import Verif.Props.Bubble

namespace FIAT
open MvPolynomial
section
variable {D : ℕ}

/-- The nodes of an entity, in reference coordinates of the entity. -/
noncomputable def entityLattice (k d : ℕ) : List (Fin d → ℝ) := if d = 0 then [0] else refLattice d k

theorem sub_entity_points {s : SimplexCell (Fin D → ℝ)} (hs : ProperSimplex ℝ s) {d e : ℕ} (hdD : d < D) (τ : Fin (d + 1) → ℕ)
    (h : HasEntity s.topo d e (List.ofFn τ)) (k : ℕ) :
    makePoints ℝ s d e k = some ((entityLattice k d).map (entMap fun j => s.v (τ j))) := by
  unfold entityLattice
  by_cases hd : d = 0
  · subst hd
    have h1 := hs.2.1.vertex _ _ h
    have h2 : τ 0 = e := by simpa using h1
    have h3 := (hs.2.1.entity _ _ _ h).2.2 e (by rw [h1]; simp)
    unfold makePoints
    rw [if_pos rfl, if_pos rfl, List.map_singleton]
    have h4 : e < s.verts.length := by rw [hs.2.1.nverts]; exact h3
    rw [List.getElem?_eq_getElem h4, Option.map_some]
    simp [entMap, SimplexCell.v, h2, List.getElem?_eq_getElem h4]
  · rw [if_neg hd]
    obtain ⟨τ', t1, t2, t3, t4⟩ := entity_tuple hs h
    rw [ofFn_inj' t3]
    exact make_points_ref hs (by omega) hdD τ' t4 k

theorem closure_zero_iff {s : SimplexCell (Fin D → ℝ)} (hs : ProperSimplex ℝ s) {k : ℕ} (hk : 1 ≤ k)
    {p : MvPolynomial (Fin D) ℝ} (hp : p.totalDegree ≤ k) {d e : ℕ} {t : List ℕ} (hdD : d < D) (h : HasEntity s.topo d e t) :
    (∀ d' e' t' pts, HasEntity s.topo d' e' t' → (∀ a ∈ t', a ∈ t) → makePoints ℝ s d' e' k = some pts → ∀ x ∈ pts, eval x p = 0) ↔
      ∀ x, OnEntity s t x → eval x p = 0 := by
  refine ⟨fun hz x hx => closure_lattice s hs (by omega) hk hp h hz x hx, fun hz d' e' t' pts h' hsub hpts x hx => hz x ?_⟩
  have hd' : d' ≤ d := by
    have := (((hs.2.1.entity _ _ _ h').1).subperm hsub).length_le
    rw [(hs.2.1.entity _ _ _ h').2.1, (hs.2.1.entity _ _ _ h).2.1] at this
    omega
  obtain ⟨τ, t1, t2, rfl, t4⟩ := entity_tuple hs h'
  rw [sub_entity_points hs (by omega) τ h' k, Option.some.injEq] at hpts
  subst hpts
  obtain ⟨y, -, rfl⟩ := List.mem_map.1 hx
  obtain ⟨c, c1, c2⟩ := (onEntity_iff s τ t1 _).2 ⟨y, rfl⟩
  rw [c2]
  have n1 := (hs.2.1.entity _ _ _ h').1
  obtain ⟨n2, -, -⟩ := hs.2.1.entity _ _ _ h
  refine ⟨fun a => if a ∈ List.ofFn τ then c a else 0, ?_, ?_⟩
  · rw [← c1, ← List.sum_toFinset _ n2, ← List.sum_toFinset _ n1]
    symm
    rw [Finset.sum_congr rfl fun a ha => (if_pos (List.mem_toFinset.1 ha)).symm]
    exact Finset.sum_subset (fun a ha => List.mem_toFinset.2 (hsub a (List.mem_toFinset.1 ha)))
      fun a _ ha => if_neg fun hc => ha (List.mem_toFinset.2 hc)
  · rw [← List.sum_toFinset _ n2, ← List.sum_toFinset _ n1]
    rw [Finset.sum_congr rfl fun a ha => show c a • s.v a = (if a ∈ List.ofFn τ then c a else 0) • s.v a by
      rw [if_pos (List.mem_toFinset.1 ha)]]
    exact Finset.sum_subset (fun a ha => List.mem_toFinset.2 (hsub a (List.mem_toFinset.1 ha)))
      fun a _ ha => by rw [if_neg fun hc => ha (List.mem_toFinset.2 hc), zero_smul]

variable {X : ℕ → Fin D → ℝ} {s s' : SimplexCell (Fin D → ℝ)} {A A' : Matrix (Fin D) (Fin D) ℝ} {b b' : Fin D → ℝ} {g g' : ℕ → ℕ}

/-- C68: Lagrange elements are continuous.  Two cells of a mesh, images of reference cells `s` and `s'`, share an entity.  Functions
`u`, `u'` of the two Lagrange spaces have the same values there if and only if the dofs of that entity and of its sub-entities are
equal, in the order of `entity_dofs`. -/
theorem lagrange_conforming (hs : ProperSimplex ℝ s) (hs' : ProperSimplex ℝ s') (k : ℕ) (hk : 1 ≤ k)
    {nodes nodes' : List (Fin D → ℝ)} {ids ids' : EntityIds ℕ} (hdual : lagrangeDual ℝ s k = some (nodes, ids))
    (hdual' : lagrangeDual ℝ s' k = some (nodes', ids')) (hm : InMesh X s A b g) (hm' : InMesh X s' A' b' g')
    {d e d' e' : ℕ} {t t' : List ℕ} (hdD : d < D) (ht : HasEntity s.topo d e t) (ht' : HasEntity s'.topo d' e' t')
    (hsh : SharedEntity g t g' t') {u u' : MvPolynomial (Fin D) ℝ} (hu : u.totalDegree ≤ k) (hu' : u'.totalDegree ≤ k) :
    (∀ d1 e1 t1 d1' e1' t1', HasEntity s.topo d1 e1 t1 → (∀ a ∈ t1, a ∈ t) → HasEntity s'.topo d1' e1' t1' → SharedEntity g t1 g' t1' →
      d1' = d1 ∧
      DofsMatch 1 (nodes.map pointEvaluation) ids (fun a => a.onField (scalarField u))
        (nodes'.map pointEvaluation) ids' (fun a => a.onField (scalarField u')) d1 e1 e1') ↔
      ∀ x x', OnEntity s t x → OnEntity s' t' x' → cellMap A b x = cellMap A' b' x' → eval x u = eval x' u' := by
  set M := A'⁻¹ * A with hM
  set cc := A'⁻¹.mulVec (b - b') with hcc
  have hG : ∀ x, cellMap A' b' (cellMap M cc x) = cellMap A b x := cell_transition hm'.regular
  set u'' := pullback (affVerts M cc 0) (fun i => affVerts M cc i.succ) u' with hu''
  have hev : ∀ x, eval x u'' = eval (cellMap M cc x) u' := fun x => by rw [hu'', eval_pull, entMap_affVerts]
  have hdeg : u''.totalDegree ≤ k := (totalDegree_pullback _ _ _).trans hu'
  have hGv : ∀ {d1 : ℕ} {τ τ' : Fin (d1 + 1) → ℕ}, (∀ j, τ j < D + 1) → (∀ j, τ' j < D + 1) →
      (List.ofFn τ).map g = (List.ofFn τ').map g' → ∀ j, cellMap M cc (s.v (τ j)) = s'.v (τ' j) := by
    intro d1 τ τ' h1 h1' h j
    apply cellMap_injective hm'.regular b'
    rw [hG]
    exact shared_verts hm hm' h1 h1' h j
  have hGe : ∀ {d1 : ℕ} {τ τ' : Fin (d1 + 1) → ℕ}, (∀ j, τ j < D + 1) → (∀ j, τ' j < D + 1) →
      (List.ofFn τ).map g = (List.ofFn τ').map g' → ∀ y, cellMap M cc (entMap (fun j => s.v (τ j)) y) = entMap (fun j => s'.v (τ' j)) y := by
    intro d1 τ τ' h1 h1' h y
    rw [cellMap_entMap]
    simp only [hGv h1 h1' h]
  have hsubd : ∀ {d1 e1 t1}, HasEntity s.topo d1 e1 t1 → (∀ a ∈ t1, a ∈ t) → d1 ≤ d := by
    intro d1 e1 t1 h' hsub
    have := (((hs.2.1.entity _ _ _ h').1).subperm hsub).length_le
    rw [(hs.2.1.entity _ _ _ h').2.1, (hs.2.1.entity _ _ _ ht).2.1] at this
    omega
  have hvals : ∀ {s : SimplexCell (Fin D → ℝ)} {nodes ids}, ProperSimplex ℝ s → lagrangeDual ℝ s k = some (nodes, ids) → ∀ {d1 e1 : ℕ} (τ : Fin (d1 + 1) → ℕ),
      d1 < D → HasEntity s.topo d1 e1 (List.ofFn τ) → ∀ p : MvPolynomial (Fin D) ℝ,
      DofValues (nodes.map pointEvaluation) ids (fun a => a.onField (scalarField p)) d1 e1
        ((entityLattice k d1).map fun y => eval (entMap (fun j => s.v (τ j)) y) p) := by
    intro s nodes ids hs hdual d1 e1 τ h1 he p
    obtain ⟨l, hl⟩ := Option.isSome_iff_exists.1 (((lagrange_dofs_partition s hs.2.1 k hk nodes ids hdual).1 d1 e1).2 ⟨_, he⟩)
    have h2 := lagrange_dof_points s hs.2.1 k hk nodes ids hdual _ _ _ hl
    rw [sub_entity_points hs h1 τ he k, Option.getD_some] at h2
    refine ⟨l, hl, ?_⟩
    have h3 := congrArg (List.map (Option.map fun x => eval x p)) h2
    simp only [List.map_map, Function.comp_def, Option.map_some] at h3
    rw [List.map_map]
    refine Eq.trans (List.map_congr_left fun i _ => ?_) h3
    rw [List.getElem?_map, Option.map_map]
    exact congrArg (Option.map · _) (_root_.funext fun x => point_eval_scalar x p)
  -- one entity
  have hone : ∀ d1 e1 t1 e1' t1', d1 < D → HasEntity s.topo d1 e1 t1 → HasEntity s'.topo d1 e1' t1' → SharedEntity g t1 g' t1' →
      (DofsMatch 1 (nodes.map pointEvaluation) ids (fun a => a.onField (scalarField u))
        (nodes'.map pointEvaluation) ids' (fun a => a.onField (scalarField u')) d1 e1 e1' ↔
        ∀ pts, makePoints ℝ s d1 e1 k = some pts → ∀ x ∈ pts, eval x (u - u'') = 0) := by
    intro d1 e1 t1 e1' t1' h2 he he' hsh1
    have hmap := (shared_tuple hs hs' hm hm' he he' hsh1).2
    obtain ⟨τ, t1, t2, rfl, t4⟩ := entity_tuple hs he
    obtain ⟨τ', t1', t2', rfl, t4'⟩ := entity_tuple hs' he'
    rw [dofsMatch_iff (hvals hs hdual τ h2 he u) (hvals hs' hdual' τ' h2 he' u'), List.map_map, List.map_inj_left,
      sub_entity_points hs h2 τ he k]
    simp only [Option.some.injEq, forall_eq', List.mem_map, forall_exists_index, and_imp, forall_apply_eq_imp_iff₂, map_sub,
      sub_eq_zero, Function.comp, one_mul, hev, hGe t2 t2' hmap]
  have hconf := closure_zero_iff hs hk ((totalDegree_sub u u'').trans (max_le hu hdeg)) hdD ht
  trans ∀ x, OnEntity s t x → eval x (u - u'') = 0
  · rw [← hconf]
    constructor
    · intro h d1 e1 t1 pts he hsub hpts
      obtain ⟨d1', e1', t1', he', hsh1, -⟩ := shared_sub (d := d) (e := e) hs' hs ht' hsh he hsub
      obtain ⟨rfl, hmatch⟩ := h d1 e1 t1 d1' e1' t1' he hsub he' hsh1
      exact (hone _ e1 t1 e1' t1' (lt_of_le_of_lt (hsubd he hsub) hdD) he he' hsh1).1 hmatch pts hpts
    · intro h d1 e1 t1 d1' e1' t1' he hsub he' hsh1
      obtain ⟨rfl, -⟩ := shared_tuple hs hs' hm hm' he he' hsh1
      refine ⟨rfl, ?_⟩
      exact (hone _ e1 t1 e1' t1' (lt_of_le_of_lt (hsubd he hsub) hdD) he he' hsh1).2 fun pts hpts => h _ e1 t1 pts he hsub hpts
  · constructor
    · intro h x x' hx _ hxx
      have : x' = cellMap M cc x := cellMap_injective hm'.regular b' (by rw [hG, hxx])
      rw [this, ← hev, ← sub_eq_zero, ← map_sub]
      exact h x hx
    · intro h x hx
      rw [map_sub, sub_eq_zero, hev]
      refine h x _ hx ?_ (hG x).symm
      obtain ⟨rfl, hmap⟩ := shared_tuple hs hs' hm hm' ht ht' hsh
      obtain ⟨τ, t1, t2, rfl, t4⟩ := entity_tuple hs ht
      obtain ⟨τ', t1', t2', rfl, t4'⟩ := entity_tuple hs' ht'
      obtain ⟨y, rfl⟩ := (onEntity_iff s τ t1 _).1 hx
      exact (onEntity_iff s' τ' t1' _).2 ⟨y, hGe t2 t2' hmap y⟩

end
end FIAT
