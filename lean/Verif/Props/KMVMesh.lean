/-
C86: Kong-Mulder-Veldhuizen elements are continuous across the cells of a mesh.
-/
import Verif.Props.KMV
import Verif.Props.ConformExample

namespace FIAT
open MvPolynomial
section
variable {D : ℕ}

/-- An affine map takes the entity with vertices `τ` to the hull of the images. -/
theorem kmv_entMap_comp {d : ℕ} (vc : Fin (D + 1) → Fin D → ℝ) (s : SimplexCell (Fin D → ℝ)) (hs : UFCVerts s) (π : Fin (D + 1) → Fin (D + 1))
    (hvc : ∀ a, vc a = s.v (π a)) (τ : Fin (d + 1) → Fin (D + 1)) (y : Fin d → ℝ) :
    entMap vc (entMap (fun j => s.v (τ j)) y) = entMap (fun j => s.v (π (τ j))) y := by
  have h0 : ∀ a : Fin (D + 1), entMap vc (s.v a) = vc a := by
    intro a
    unfold entMap
    rw [hs a a.2]
    refine Fin.cases ?_ (fun i => ?_) a
    · simp
    · simp [Fin.val_inj, add_sub_cancel]
  have hM : ∀ x, entMap vc x = cellMap (Matrix.of fun i j => vc j.succ i - vc 0 i) (vc 0) x := by
    intro x
    rw [← entMap_affVerts]
    congr 1
    funext j
    refine Fin.cases rfl (fun i => ?_) j
    funext k
    simp [affVerts]
  rw [hM, cellMap_entMap]
  congr 1
  funext j
  rw [← hM, h0, hvc]

/-- Specification of dofs that are point values, on every entity allowed by `P` at the points with the same coordinates relative to the
vertices of the entity, in order. -/
def UniformDofs (s : SimplexCell (Fin D → ℝ)) (nodes : List (Functional ℝ (Fin D → ℝ))) (ids : EntityIds ℕ) (P : ℕ → ℕ → Prop)
    (L : (d : ℕ) → List (Fin d → ℝ)) : Prop :=
  ∀ d e (τ : Fin (d + 1) → ℕ), HasEntity s.topo d e (List.ofFn τ) → P d e →
    DofsOf nodes ids d e fun p => (L d).map fun y => eval (entMap (fun j => s.v (τ j)) y) p

/-- The entities with dofs at exactly the same places: vertices, edges and, on the tetrahedron, the facets other than number 0. -/
def KMVShared (D k d e : ℕ) : Prop := d ≤ 1 ∨ (D = 3 ∧ d = 2 ∧ (e ≠ 0 ∨ k = 1))

theorem kmv_uniform {s : SimplexCell (Fin D → ℝ)} (hs : ProperSimplex ℝ s) {k : ℕ} (hk : 1 ≤ k) {nodes : List (Functional ℝ (Fin D → ℝ))} {ids : EntityIds ℕ}
    (h : KMVDofs s k nodes ids) : ∃ L : (d : ℕ) → List (Fin d → ℝ), UniformDofs s nodes ids (KMVShared D k) L := by
  obtain ⟨ts, -, -, -, -, he⟩ := h.edge
  have hfac : ∃ L2 : List (Fin 2 → ℝ), ∀ (e : ℕ) (τ : Fin 3 → ℕ), HasEntity s.topo 2 e (List.ofFn τ) → D = 3 → (e ≠ 0 ∨ k = 1) →
      DofsOf nodes ids 2 e fun p => L2.map fun y => eval (entMap (fun j => s.v (τ j)) y) p := by
    by_cases hD : D = 3
    · obtain ⟨cs, c1, c2, c3⟩ := h.facet hD
      refine ⟨cs.map fun c => ![c.2.1, c.2.2], fun e τ ht _ hek => ?_⟩
      obtain ⟨xs, x1, x2⟩ := c3 e (τ 0) (τ 1) (τ 2) (by simpa [List.ofFn_succ] using ht)
      have hxs : xs = (cs.map fun c => ![c.2.1, c.2.2]).map fun y => entMap (fun j => s.v (τ j)) y := by
        rw [List.map_map]
        rcases hek with h0 | rfl
        · clear x1 c1 c3
          revert c2
          induction x2 with
          | nil => intro _; rfl
          | @cons x c xs cs hxc _ ih =>
            intro c2
            rw [List.map_cons, ← ih fun c' hc' => c2 c' (List.mem_cons_of_mem _ hc')]
            congr 1
            rw [hxc.1 h0]
            obtain ⟨-, -, -, hsum⟩ := c2 c List.mem_cons_self
            have h1 : c.1 = 1 - c.2.1 - c.2.2 := by linarith
            rw [h1]
            funext i
            simp [entMap, Fin.sum_univ_two]
            ring
        · have hc0 : cs = [] := List.length_eq_zero_iff.1 (by rw [c1]; rfl)
          subst hc0
          cases x2
          rfl
      obtain ⟨l, l1, l2⟩ := x1
      refine ⟨l, l1, fun p => ?_⟩
      rw [l2 p, hxs]
      simp only [List.map_map]
      rfl
    · exact ⟨[], fun _ _ _ h _ => absurd h hD⟩
  obtain ⟨L2, hL2⟩ := hfac
  refine ⟨fun d => match d with
    | 0 => [fun i => i.elim0]
    | 1 => ts.map fun r => ![r]
    | 2 => L2
    | _ => [], ?_⟩
  intro d e τ ht hP
  match d, τ, ht, hP with
  | 0, τ, ht, _ =>
    have h1 := hs.2.1.vertex e _ ht
    have h2 : τ 0 = e := by simpa using h1
    obtain ⟨l, l1, l2⟩ := h.vertex e _ ht
    refine ⟨l, l1, fun p => ?_⟩
    rw [l2]
    simp [entMap, h2]
  | 1, τ, ht, _ =>
    obtain ⟨l, l1, l2⟩ := he e (τ 0) (τ 1) (by simpa [List.ofFn_succ] using ht)
    refine ⟨l, l1, fun p => ?_⟩
    rw [l2]
    simp only [List.map_map]
    refine List.map_congr_left fun r _ => ?_
    simp only [Function.comp]
    congr 3
    funext i
    simp [entMap]
    ring
  | 2, τ, ht, hP =>
    have hP' : D = 3 ∧ (e ≠ 0 ∨ k = 1) := by
      rcases hP with h | ⟨h1, -, h2⟩
      · omega
      · exact ⟨h1, h2⟩
    exact hL2 e τ ht hP'.1 hP'.2
  | d + 3, τ, ht, hP =>
    exfalso
    rcases hP with h | ⟨-, h, -⟩ <;> omega

/-- The space is invariant under the affine maps that permute the vertices. -/
theorem kmv_space_symmetric {s : SimplexCell (Fin D → ℝ)} (hs : ProperSimplex ℝ s) (hu : UFCVerts s) (π : Equiv.Perm (Fin (D + 1)))
    (vc : Fin (D + 1) → Fin D → ℝ) (hvc : ∀ a, vc a = s.v (π a)) {k : ℕ} {w : Unit → MvPolynomial (Fin D) ℝ} (hw : w ∈ KMVSpaceOf s k) :
    (fun c => pullback (vc 0) (fun i : Fin D => vc i.succ) (w c)) ∈ KMVSpaceOf s k := by
  obtain ⟨T, hT⟩ : ∃ T : (Unit → MvPolynomial (Fin D) ℝ) →ₗ[ℝ] (Unit → MvPolynomial (Fin D) ℝ),
      ∀ w c, T w c = pullback (vc 0) (fun i : Fin D => vc i.succ) (w c) :=
    ⟨((aeval fun j => C (vc 0 j) + ∑ i : Fin D, C (vc i.succ j - vc 0 j) * X i : MvPolynomial (Fin D) ℝ →ₐ[ℝ] MvPolynomial (Fin D) ℝ)
      ).toLinearMap.compLeft Unit, fun _ _ => rfl⟩
  have hP : ∀ j, polySpace D j ≤ (polySpace D j).comap T := by
    intro j w hw
    rw [Submodule.mem_comap, mem_polySpace, hT]
    exact (totalDegree_pullback _ _ _).trans (mem_polySpace.1 hw)
  have hV : ∀ j d, vanishSub s j d ≤ (vanishSub s j d).comap T := by
    rintro j d w ⟨h1, h2⟩
    rw [Submodule.mem_comap, mem_vanishSub]
    simp only [hT]
    refine ⟨(totalDegree_pullback _ _ _).trans h1, fun e t ht x hx => ?_⟩
    obtain ⟨τ, t1, t2, rfl, -⟩ := entity_tuple hs ht
    obtain ⟨y, rfl⟩ := (onEntity_iff s τ t1 _).1 hx
    rw [eval_pull]
    have hlift : (fun j => s.v (τ j)) = fun j => s.v ((fun j => (⟨τ j, t2 j⟩ : Fin (D + 1))) j) := rfl
    rw [hlift, kmv_entMap_comp vc s hu π hvc]
    set σ : Fin (d + 1) → ℕ := fun j => ((π ⟨τ j, t2 j⟩ : Fin (D + 1)) : ℕ) with hσ
    have hσi : Function.Injective σ := by
      intro a b hab
      have h1 := π.injective (Fin.ext hab)
      exact t1 (by simpa using h1)
    obtain ⟨d', e', t', ht', hS⟩ := hs.2.1.all (List.ofFn σ).toFinset (by simp) (by
      intro a ha
      rw [List.mem_toFinset, List.mem_ofFn'] at ha
      obtain ⟨j, rfl⟩ := ha
      rw [Finset.mem_range, hs.1]
      exact (π _).2)
    obtain ⟨g1, g2, g3⟩ := hs.2.1.entity _ _ _ ht'
    have hmem : ∀ a, a ∈ t' ↔ a ∈ List.ofFn σ := fun a => by
      rw [← List.mem_toFinset, hS, List.mem_toFinset]
    have hn : (List.ofFn σ).Nodup := List.nodup_ofFn.2 hσi
    have hlen : t'.length = (List.ofFn σ).length := ((List.perm_ext_iff_of_nodup g1 hn).2 hmem).length_eq
    rw [g2, List.length_ofFn] at hlen
    obtain rfl : d' = d := by omega
    refine h2 e' t' ht' _ ((onEntity_congr s g1 hn hmem _).2 ((onEntity_iff s σ hσi _).2 ⟨y, rfl⟩))
  have key : KMVSpaceOf s k ≤ (KMVSpaceOf s k).comap T := by
    unfold KMVSpaceOf
    split_ifs
    · exact hP 1
    · exact sup_le ((hP k).trans (Submodule.comap_mono le_sup_left)) ((hV _ _).trans (Submodule.comap_mono le_sup_right))
    · exact sup_le ((hP k).trans (Submodule.comap_mono le_sup_left)) ((hV _ _).trans (Submodule.comap_mono le_sup_right))
    · refine sup_le (sup_le ((hP k).trans (Submodule.comap_mono (le_sup_left.trans le_sup_left))) ?_) ?_
      · exact (hV _ _).trans (Submodule.comap_mono (le_sup_right.trans le_sup_left))
      · exact (hV _ _).trans (Submodule.comap_mono le_sup_right)
  have := key hw
  rw [Submodule.mem_comap] at this
  rwa [show T w = fun c => pullback (vc 0) (fun i : Fin D => vc i.succ) (w c) from _root_.funext fun c => hT w c] at this

/-- A permutation of the vertices that takes one tuple to another. -/
theorem perm_extend {n m : ℕ} {τ τ' : Fin m → Fin n} (h : Function.Injective τ) (h' : Function.Injective τ') :
    ∃ π : Equiv.Perm (Fin n), ∀ j, π (τ j) = τ' j := by
  classical
  let E : {a // a ∈ Set.range τ} ≃ {a // a ∈ Set.range τ'} := (Equiv.ofInjective τ h).symm.trans (Equiv.ofInjective τ' h')
  refine ⟨E.extendSubtype, fun j => ?_⟩
  rw [Equiv.extendSubtype_apply_of_mem E (τ j) ⟨j, rfl⟩]
  show ((Equiv.ofInjective τ' h' ((Equiv.ofInjective τ h).symm ⟨τ j, ⟨j, rfl⟩⟩)) : Fin n) = τ' j
  rw [Equiv.ofInjective_symm_apply h j]
  rfl

variable {X : ℕ → Fin D → ℝ} {A A' : Matrix (Fin D) (Fin D) ℝ} {b b' : Fin D → ℝ} {g g' : ℕ → ℕ}

/-- A sub-entity of an allowed entity is allowed. -/
theorem kmvShared_sub {s : SimplexCell (Fin D → ℝ)} (hs : ProperSimplex ℝ s) {k d e d1 e1 : ℕ} {t t1 : List ℕ} (ht : HasEntity s.topo d e t)
    (h1 : HasEntity s.topo d1 e1 t1) (hsub : ∀ a ∈ t1, a ∈ t) (hd : KMVShared D k d e) : KMVShared D k d1 e1 := by
  have hle := ((hs.2.1.entity _ _ _ h1).1.subperm hsub).length_le
  rw [(hs.2.1.entity _ _ _ h1).2.1, (hs.2.1.entity _ _ _ ht).2.1] at hle
  rcases Nat.lt_or_ge d1 2 with h | h
  · exact Or.inl (by omega)
  · rcases hd with hd | ⟨hD, rfl, hek⟩
    · omega
    · obtain rfl : d1 = 2 := by omega
      have heq : t1.toFinset = t.toFinset := by
        refine Finset.eq_of_subset_of_card_le (fun a ha => List.mem_toFinset.2 (hsub a (List.mem_toFinset.1 ha))) ?_
        rw [List.toFinset_card_of_nodup (hs.2.1.entity _ _ _ h1).1, List.toFinset_card_of_nodup (hs.2.1.entity _ _ _ ht).1,
          (hs.2.1.entity _ _ _ h1).2.1, (hs.2.1.entity _ _ _ ht).2.1]
      obtain ⟨-, rfl⟩ := hs.2.1.unique _ _ _ _ _ _ h1 ht heq
      exact Or.inr ⟨hD, rfl, hek⟩

/-- C86: two cells of a mesh, images of the UFC simplex, share a vertex, an edge or, in three dimensions, a facet which neither numbers 0 (for
degree 1: any facet).  Functions `u`, `u'` of the Kong-Mulder-Veldhuizen space have the same values on it if and only if the dofs of that
entity and of its sub-entities are equal, in the order of `entity_dofs`. -/
theorem kmv_mesh_conforming_partial (k : ℕ) (h : KMVDegree D k) {el : NodalPart D Unit} {o : ℕ}
    (hel : kmvElement ((ufcData D).toSimplex D) (ufcData D) k = some (el, o))
    (hm : InMesh X ((ufcData D).toSimplex D) A b g) (hm' : InMesh X ((ufcData D).toSimplex D) A' b' g') {d e d' e' : ℕ} {t t' : List ℕ}
    (ht : HasEntity ((ufcData D).toSimplex D).topo d e t) (ht' : HasEntity ((ufcData D).toSimplex D).topo d' e' t')
    (hsh : SharedEntity g t g' t') (hd : d ≤ 1 ∨ (D = 3 ∧ d = 2 ∧ ((e ≠ 0 ∧ e' ≠ 0) ∨ k = 1)))
    {u u' : Unit → MvPolynomial (Fin D) ℝ} (hu : u ∈ KMVSpaceOf ((ufcData D).toSimplex D) k) (hu' : u' ∈ KMVSpaceOf ((ufcData D).toSimplex D) k) :
    (∀ d1 e1 t1 d1' e1' t1', HasEntity ((ufcData D).toSimplex D).topo d1 e1 t1 → (∀ a ∈ t1, a ∈ t) →
      HasEntity ((ufcData D).toSimplex D).topo d1' e1' t1' → SharedEntity g t1 g' t1' → d1' = d1 ∧
      DofsMatch 1 el.nodes el.ids (fun a => a.onField (scalarField (u ()))) el.nodes el.ids (fun a => a.onField (scalarField (u' ()))) d1 e1 e1') ↔
      ∀ x x', OnEntity ((ufcData D).toSimplex D) t x → OnEntity ((ufcData D).toSimplex D) t' x' → cellMap A b x = cellMap A' b' x' →
        eval x (u ()) = eval x' (u' ()) := by
  have hD : D = 2 ∨ D = 3 := by rcases h with ⟨h, -⟩ | ⟨h, -⟩ <;> simp [h]
  have hk : 1 ≤ k := by rcases h with ⟨-, h, -⟩ | ⟨-, h, -⟩ <;> exact h
  have hdofs : KMVDofs ((ufcData D).toSimplex D) k el.nodes el.ids := by
    rw [(kmv_nodes_ids k h hel).1, (kmv_nodes_ids k h hel).2]
    exact kmv_dofs_spec k h
  have hconf := fun (d e : ℕ) (t : List ℕ) => kmv_conforming k h hel (d := d) (e := e) (t := t)
  have hs := (proper_ufcData D hD).1
  have hv := verts_ufcData D hD
  generalize (ufcData D).toSimplex D = s at *
  obtain ⟨L, hL⟩ := kmv_uniform hs hk hdofs
  obtain ⟨rfl, hmap⟩ := shared_tuple hs hs hm hm' ht ht' hsh
  have hdS : KMVShared D k d' e := by
    rcases hd with h | ⟨h1, h2, h3⟩
    · exact Or.inl h
    · exact Or.inr ⟨h1, h2, h3.imp_left And.left⟩
  have hdS' : KMVShared D k d' e' := by
    rcases hd with h | ⟨h1, h2, h3⟩
    · exact Or.inl h
    · exact Or.inr ⟨h1, h2, h3.imp_left And.right⟩
  obtain ⟨τ, t1, t2, rfl, t4⟩ := entity_tuple hs ht
  obtain ⟨τ', t1', t2', rfl, t4'⟩ := entity_tuple hs ht'
  have hV := shared_verts hm hm' t2 t2' hmap
  have hg : ∀ j, g (τ j) = g' (τ' j) := fun j => by
    rw [List.map_ofFn, List.map_ofFn] at hmap
    exact congrFun (ofFn_inj' hmap) j
  have hginj : ∀ a c, a < D + 1 → c < D + 1 → g' a = g' c → a = c := by
    intro a c ha hc hac
    have h1 : s.v a = s.v c := cellMap_injective hm'.regular b' (by rw [hm'.vertices a ha, hm'.vertices c hc, hac])
    have := (proper_independent hs).injective (a₁ := ⟨a, ha⟩) (a₂ := ⟨c, hc⟩) h1
    exact congrArg Fin.val this
  obtain ⟨π, hπ⟩ := perm_extend (τ := fun j => (⟨τ j, t2 j⟩ : Fin (D + 1))) (τ' := fun j => (⟨τ' j, t2' j⟩ : Fin (D + 1)))
    (fun a c hac => t1 (congrArg Fin.val hac)) (fun a c hac => t1' (congrArg Fin.val hac))
  set vc : Fin (D + 1) → Fin D → ℝ := fun a => s.v (π a) with hvc
  have hw : (fun c => pullback (vc 0) (fun i : Fin D => vc i.succ) (u' c)) ∈ KMVSpaceOf s k :=
    kmv_space_symmetric hs hv π vc (fun _ => rfl) hu'
  set u'' : Unit → MvPolynomial (Fin D) ℝ := fun c => pullback (vc 0) (fun i : Fin D => vc i.succ) (u' c) with hu''
  have hev : ∀ x, eval x (u'' ()) = eval (entMap vc x) (u' ()) := fun x => eval_pull vc (u' ()) x
  have hcomp : ∀ {m : ℕ} (σ σ' : Fin (m + 1) → ℕ) (hσ : ∀ j, σ j < D + 1), (∀ j, ((π ⟨σ j, hσ j⟩ : Fin (D + 1)) : ℕ) = σ' j) → ∀ y,
      entMap vc (entMap (fun j => s.v (σ j)) y) = entMap (fun j => s.v (σ' j)) y := by
    intro m σ σ' hσ hσσ y
    have := kmv_entMap_comp vc s hv π (fun _ => rfl) (fun j => (⟨σ j, hσ j⟩ : Fin (D + 1))) y
    simp only [hσσ] at this
    exact this
  have hτ : ∀ j, ((π ⟨τ j, t2 j⟩ : Fin (D + 1)) : ℕ) = τ' j := fun j => congrArg Fin.val (hπ j)
  -- the permutation takes shared sub-entities to each other
  have hsubπ : ∀ {m : ℕ} {σ σ' : Fin (m + 1) → ℕ} (hσ : ∀ j, σ j < D + 1), (∀ j, σ' j < D + 1) → (∀ a ∈ List.ofFn σ, a ∈ List.ofFn τ) →
      (List.ofFn σ).map g = (List.ofFn σ').map g' → ∀ j, ((π ⟨σ j, hσ j⟩ : Fin (D + 1)) : ℕ) = σ' j := by
    intro m σ σ' hσ hσ' hsub hmap1 j
    obtain ⟨i, hi⟩ := (List.mem_ofFn' _ _).1 (hsub (σ j) ((List.mem_ofFn' _ _).2 ⟨j, rfl⟩))
    have h1 : g (σ j) = g' (σ' j) := by
      rw [List.map_ofFn, List.map_ofFn] at hmap1
      exact congrFun (ofFn_inj' hmap1) j
    have h2 : (⟨σ j, hσ j⟩ : Fin (D + 1)) = ⟨τ i, t2 i⟩ := Fin.ext hi.symm
    rw [h2, hτ]
    exact hginj _ _ (t2' i) (hσ' j) (by rw [← hg, hi, h1])
  have hone : ∀ d1 e1 (σ : Fin (d1 + 1) → ℕ) e1' t1', HasEntity s.topo d1 e1 (List.ofFn σ) → (∀ a ∈ List.ofFn σ, a ∈ List.ofFn τ) →
      HasEntity s.topo d1 e1' t1' → SharedEntity g (List.ofFn σ) g' t1' →
      (DofsMatch 1 el.nodes el.ids (fun a => a.onField (scalarField (u ()))) el.nodes el.ids (fun a => a.onField (scalarField (u' ()))) d1 e1 e1' ↔
        ∀ y ∈ L d1, eval (entMap (fun j => s.v (σ j)) y) (u () - u'' ()) = 0) := by
    intro d1 e1 σ e1' q' he hsub he' hsh1
    have hmap1 := (shared_tuple hs hs hm hm' he he' hsh1).2
    obtain ⟨σ0, q1, q2, q3, -⟩ := entity_tuple hs he
    obtain rfl := ofFn_inj' q3
    obtain ⟨σ', q1', q2', rfl, -⟩ := entity_tuple hs he'
    have hsub' : ∀ a ∈ List.ofFn σ', a ∈ List.ofFn τ' := by
      intro a ha
      obtain ⟨j, rfl⟩ := (List.mem_ofFn' _ _).1 ha
      rw [← hsubπ q2 q2' hsub hmap1 j]
      obtain ⟨i, hi⟩ := (List.mem_ofFn' _ _).1 (hsub (σ j) ((List.mem_ofFn' _ _).2 ⟨j, rfl⟩))
      have h2 : (⟨σ j, q2 j⟩ : Fin (D + 1)) = ⟨τ i, t2 i⟩ := Fin.ext hi.symm
      rw [h2, hτ]
      exact (List.mem_ofFn' _ _).2 ⟨i, rfl⟩
    obtain ⟨l, l1, l2⟩ := hL d1 e1 σ he (kmvShared_sub hs ht he hsub hdS)
    obtain ⟨l', l1', l2'⟩ := hL d1 e1' σ' he' (kmvShared_sub hs ht' he' hsub' hdS')
    rw [dofsMatch_iff ⟨l, l1, l2 (u ())⟩ ⟨l', l1', l2' (u' ())⟩, List.map_map, List.map_inj_left]
    refine forall_congr' fun y => forall_congr' fun _ => ?_
    rw [map_sub, sub_eq_zero, hev, hcomp σ σ' q2 (hsubπ q2 q2' hsub hmap1)]
    simp only [Function.comp, one_mul]
  have hwu : u - u'' ∈ KMVSpaceOf s k := Submodule.sub_mem _ hu hw
  trans ∀ x, OnEntity s (List.ofFn τ) x → eval x (u () - u'' ()) = 0
  · constructor
    · intro hmatch
      have hz : ZeroOnClosure s el.nodes el.ids (List.ofFn τ) (u () - u'' ()) := by
        intro d1 e1 q he hsub l hl i hi node hnode
        obtain ⟨d1', e1', q', he', hsh1, -⟩ := shared_sub (d := d') (e := e) hs hs ht' hsh he hsub
        obtain ⟨rfl, hmt⟩ := hmatch d1 e1 q d1' e1' q' he hsub he' hsh1
        obtain ⟨σ, q1, q2, rfl, -⟩ := entity_tuple hs he
        have hzero := (hone _ e1 σ e1' q' he hsub he' hsh1).1 hmt
        obtain ⟨l', l1', l2'⟩ := hL _ e1 σ he (kmvShared_sub hs ht he hsub hdS)
        rw [hl, Option.some.injEq] at l1'
        subst l1'
        have hmem : (el.nodes[i]?).map (fun node => node.onField (scalarField (u () - u'' ()))) ∈
            ((L d1').map fun y => eval (entMap (fun j => s.v (σ j)) y) (u () - u'' ())).map some := by
          rw [← l2']
          exact List.mem_map_of_mem hi
        rw [hnode, Option.map_some] at hmem
        obtain ⟨r, hr, hr'⟩ := List.mem_map.1 hmem
        obtain ⟨y, hy, rfl⟩ := List.mem_map.1 hr
        rw [← Option.some.inj hr']
        exact hzero y hy
      intro x hx
      rcases Nat.eq_zero_or_pos d' with rfl | hpos
      · obtain ⟨l, l1, l2⟩ := hdofs.vertex e _ ht
        obtain ⟨y, rfl⟩ := (onEntity_iff s τ t1 x).1 hx
        have h0 : τ 0 = e := by simpa using hs.2.1.vertex e _ ht
        have hx0 : entMap (fun j => s.v (τ j)) y = s.v e := by simp [entMap, h0]
        rw [hx0]
        have hl2 := l2 (u () - u'' ())
        obtain ⟨i, rfl⟩ : ∃ i, l = [i] := List.length_eq_one_iff.1 (by simpa using congrArg List.length hl2)
        simp only [List.map_cons, List.map_nil, List.cons.injEq, and_true] at hl2
        obtain ⟨node, n1, n2⟩ := Option.map_eq_some_iff.1 hl2
        rw [← n2]
        exact hz 0 e _ ht (fun a ha => ha) [i] l1 i (List.mem_singleton_self _) node n1
      · refine hconf d' e _ ht ?_ (u - u'') hwu hz x hx
        rcases hdS with h | h
        · exact Or.inl (by omega)
        · exact Or.inr h
    · intro hz d1 e1 q d1' e1' q' he hsub he' hsh1
      obtain ⟨rfl, -⟩ := shared_tuple hs hs hm hm' he he' hsh1
      refine ⟨rfl, ?_⟩
      obtain ⟨σ, q1, q2, rfl, -⟩ := entity_tuple hs he
      refine (hone _ e1 σ e1' q' he hsub he' hsh1).2 fun y _ => hz _ ?_
      exact onEntity_mono (hs.2.1.entity _ _ _ ht).1 (hs.2.1.entity _ _ _ he).1 hsub ((onEntity_iff s σ q1 _).2 ⟨y, rfl⟩)
  · have hpt : ∀ y, cellMap A b (entMap (fun j => s.v (τ j)) y) = cellMap A' b' (entMap vc (entMap (fun j => s.v (τ j)) y)) := fun y => by
      rw [hcomp τ τ' t2 hτ]
      exact (shared_points hs hm t1 t2 hV y y).2 rfl
    constructor
    · intro hz x x' hx _ hxx
      have h0 := hz x hx
      obtain ⟨y, rfl⟩ := (onEntity_iff s τ t1 _).1 hx
      have : x' = entMap vc (entMap (fun j => s.v (τ j)) y) := cellMap_injective hm'.regular b' (by rw [← hpt, hxx])
      rw [this, ← hev, ← sub_eq_zero, ← map_sub]
      exact h0
    · intro hc x hx
      obtain ⟨y, rfl⟩ := (onEntity_iff s τ t1 _).1 hx
      rw [map_sub, sub_eq_zero, hev]
      refine hc _ _ hx ?_ (hpt y)
      rw [hcomp τ τ' t2 hτ]
      exact (onEntity_iff s τ' t1' _).2 ⟨y, rfl⟩

end

section
variable {X : ℕ → Fin 2 → ℝ} {A A' : Matrix (Fin 2) (Fin 2) ℝ} {b b' : Fin 2 → ℝ} {g g' : ℕ → ℕ}

/-- C86: on meshes of triangles the elements of all degrees are continuous: functions of the Kong-Mulder-Veldhuizen spaces of two triangles that
share a vertex or an edge have the same values on it if and only if the dofs of that entity and of its vertices are equal, in the order of
`entity_dofs`. -/
theorem kmv_triangle_conforming (k : ℕ) (h : KMVDegree 2 k) {el : NodalPart 2 Unit} {o : ℕ}
    (hel : kmvElement tri ufcTriangle k = some (el, o)) (hm : InMesh X tri A b g) (hm' : InMesh X tri A' b' g') {d e d' e' : ℕ} {t t' : List ℕ}
    (hd : d < 2) (ht : HasEntity tri.topo d e t) (ht' : HasEntity tri.topo d' e' t') (hsh : SharedEntity g t g' t')
    {u u' : Unit → MvPolynomial (Fin 2) ℝ} (hu : u ∈ KMVSpaceOf tri k) (hu' : u' ∈ KMVSpaceOf tri k) :
    (∀ d1 e1 t1 d1' e1' t1', HasEntity tri.topo d1 e1 t1 → (∀ a ∈ t1, a ∈ t) →
      HasEntity tri.topo d1' e1' t1' → SharedEntity g t1 g' t1' → d1' = d1 ∧
      DofsMatch 1 el.nodes el.ids (fun a => a.onField (scalarField (u ()))) el.nodes el.ids (fun a => a.onField (scalarField (u' ()))) d1 e1 e1') ↔
      ∀ x x', OnEntity tri t x → OnEntity tri t' x' → cellMap A b x = cellMap A' b' x' → eval x (u ()) = eval x' (u' ()) :=
  kmv_mesh_conforming_partial (D := 2) k h hel hm hm' ht ht' hsh (Or.inl (by omega)) hu hu'

end

section
/-- The distance of the dof of facet 0 from the facet. -/
private def offset : ℚ := 1 - 0.33333333333333337 - 2 * 0.3333333333333333

/-- A polynomial that vanishes at the dofs of the closure of facet 0, of degree 2 on the tetrahedron, but not on the facet. -/
private noncomputable def badFun : MvPolynomial (Fin 3) ℝ :=
  C (offset : ℝ) * (X 0 * X 1 * X 2) - X 0 * X 1 * X 2 * (1 - X 0 - X 1 - X 2)

private theorem eval_badFun (x : Fin 3 → ℝ) : eval x badFun = x 0 * x 1 * x 2 * (offset - (1 - x 0 - x 1 - x 2)) := by
  simp [badFun]
  ring

private theorem bad_points : (topoEnts (kmvTopo 3)).all (fun (q : ℕ × ℕ × List ℕ) => decide (3 ≤ q.1) ||
    (decide ((kmvDofPts 3 2 q.1 q.2.1).length = 1) && (!(q.2.2.all fun (a : ℕ) => decide (a ≠ 0)) ||
      (kmvDofPts 3 2 q.1 q.2.1).all fun (x : List ℚ) => decide (x.length = 3) &&
        decide (x.getD 0 0 * x.getD 1 0 * x.getD 2 0 * (offset - (1 - x.getD 0 0 - x.getD 1 0 - x.getD 2 0)) = 0)))) = true := by
  decide +kernel

private theorem on_coord {t : List ℕ} {x : Fin 3 → ℝ} (hx : OnEntity tet t x) (hn : t.Nodup) (ht : ∀ a ∈ t, a < 4) {i : Fin 3} (hi : (i : ℕ) + 1 ∉ t) :
    x i = 0 := by
  have h := onEntity_bary (verts_ufcData 3 (Or.inr rfl)) hn ht hx (a := (i : ℕ) + 1) (by omega) hi
  rw [List.getElem?_cons_succ, List.getElem?_eq_getElem (by simp), Option.some.injEq, List.getElem_ofFn] at h
  exact h

private theorem bad_mem : (fun _ : Unit => badFun) ∈ KMVSpaceOf tet 2 := by
  have h3 : (X 0 * X 1 * X 2 : MvPolynomial (Fin 3) ℝ).totalDegree ≤ 3 := by
    refine (totalDegree_mul _ _).trans ?_
    have := totalDegree_mul (X 0 : MvPolynomial (Fin 3) ℝ) (X 1)
    simp only [totalDegree_X] at *
    omega
  have hP := proper_ufcTetrahedron (K := ℝ)
  have e : (fun _ : Unit => badFun) = (fun _ => C (offset : ℝ) * (X 0 * X 1 * X 2)) + (fun _ => - (X 0 * X 1 * X 2 * (1 - X 0 - X 1 - X 2))) := by
    funext _
    exact sub_eq_add_neg (C (offset : ℝ) * (X 0 * X 1 * X 2) : MvPolynomial (Fin 3) ℝ) _
  unfold KMVSpaceOf
  rw [if_neg (by norm_num), if_neg (by norm_num), e]
  refine Submodule.add_mem_sup (Submodule.mem_sup_right ?_) ?_
  · rw [mem_vanishSub]
    refine ⟨?_, fun e t ht x hx => ?_⟩
    · refine (totalDegree_mul _ _).trans ?_
      rw [totalDegree_C]
      omega
    · obtain ⟨g1, g2, g3⟩ := hP.2.1.entity _ _ _ ht
      have : ∃ i : Fin 3, (i : ℕ) + 1 ∉ t := by
        by_contra hc
        push Not at hc
        have hsub : ({1, 2, 3} : Finset ℕ) ⊆ t.toFinset := by
          intro a ha
          simp only [Finset.mem_insert, Finset.mem_singleton] at ha
          rw [List.mem_toFinset]
          rcases ha with rfl | rfl | rfl
          · exact hc 0
          · exact hc 1
          · exact hc 2
        have := Finset.card_le_card hsub
        rw [List.toFinset_card_of_nodup g1, g2] at this
        simp at this
      obtain ⟨i, hi⟩ := this
      have h0 := on_coord hx g1 g3 hi
      simp only [map_mul, eval_C, eval_X]
      fin_cases i <;> simp only [Fin.zero_eta, Fin.mk_one, Fin.reduceFinMk] at h0 <;> rw [h0] <;> ring
  · rw [mem_vanishSub]
    refine ⟨?_, fun e t ht x hx => ?_⟩
    · rw [totalDegree_neg]
      refine (totalDegree_mul _ _).trans ?_
      have h1 : (1 - X 0 - X 1 - X 2 : MvPolynomial (Fin 3) ℝ).totalDegree ≤ 1 := by
        refine (totalDegree_sub _ _).trans (max_le ((totalDegree_sub _ _).trans (max_le ((totalDegree_sub _ _).trans (max_le ?_ ?_)) ?_)) ?_) <;>
          simp
      omega
    · obtain ⟨g1, g2, g3⟩ := hP.2.1.entity _ _ _ ht
      have : ∃ a < 4, a ∉ t := by
        by_contra hc
        push Not at hc
        have hsub : Finset.range 4 ⊆ t.toFinset := fun a ha => List.mem_toFinset.2 (hc a (Finset.mem_range.1 ha))
        have := Finset.card_le_card hsub
        rw [List.toFinset_card_of_nodup g1, g2] at this
        simp at this
      obtain ⟨a, ha, hat⟩ := this
      have hb := onEntity_bary (verts_ufcData 3 (Or.inr rfl)) g1 g3 hx ha hat
      simp only [map_neg, map_mul, map_sub, map_one, eval_X]
      rcases Nat.eq_zero_or_pos a with rfl | hpos
      · rw [List.getElem?_cons_zero, Option.some.injEq, Fin.sum_univ_three] at hb
        have : 1 - x 0 - x 1 - x 2 = 0 := by linarith
        rw [this]; ring
      · have h0 := on_coord hx g1 g3 (i := ⟨a - 1, by omega⟩) (by
          rw [Nat.sub_add_cancel hpos]; exact hat)
        interval_cases a <;> simp only [Nat.add_one_sub_one, Nat.sub_self, Fin.zero_eta, Fin.mk_one, Fin.reduceFinMk, Nat.reduceSub] at h0 <;> rw [h0] <;> ring

variable {X : ℕ → Fin 3 → ℝ} {A A' : Matrix (Fin 3) (Fin 3) ℝ} {b b' : Fin 3 → ℝ} {g g' : ℕ → ℕ}

/-- C87 is false of the code for facet 0: on any mesh, whenever a tetrahedron shares its facet number 0 with another one, there are functions of
the degree 2 spaces with equal dofs on the whole closure of the facet which do not agree on it.  (The coordinates of the dof of this facet are
written with 17 decimals and do not add up to 1.) -/
theorem kmv_tetrahedron_refuted {el : NodalPart 3 Unit} {o : ℕ} (hel : kmvElement tet ufcTetrahedron (2 : ℕ) = some (el, o))
    (hm : InMesh X tet A b g) (hm' : InMesh X tet A' b' g') {e' : ℕ} {t t' : List ℕ}
    (ht : HasEntity tet.topo 2 0 t) (ht' : HasEntity tet.topo 2 e' t') (hsh : SharedEntity g t g' t') :
    ∃ u ∈ KMVSpaceOf tet 2, ∃ u' ∈ KMVSpaceOf tet 2,
      (∀ d1 e1 t1 d1' e1' t1', HasEntity tet.topo d1 e1 t1 → (∀ a ∈ t1, a ∈ t) → HasEntity tet.topo d1' e1' t1' → SharedEntity g t1 g' t1' →
        d1' = d1 ∧ DofsMatch 1 el.nodes el.ids (fun a => a.onField (scalarField (u ()))) el.nodes el.ids
          (fun a => a.onField (scalarField (u' ()))) d1 e1 e1') ∧
      ∃ x x', OnEntity tet t x ∧ OnEntity tet t' x' ∧ cellMap A b x = cellMap A' b' x' ∧ eval x (u ()) ≠ eval x' (u' ()) := by
  have hP := proper_ufcTetrahedron (K := ℝ)
  have h32 : KMVDegree 3 2 := by unfold KMVDegree; omega
  have hc := kmv_checks 3 2 h32
  obtain ⟨n1, n2⟩ := kmv_nodes_ids (D := 3) 2 h32 hel
  have htopo : tet.topo = kmvTopo 3 := kmv_topo_eq 3 (Or.inr rfl)
  have ht123 : t = [1, 2, 3] := by
    refine hasEntity_unique ht ⟨_, rfl, rfl⟩
  refine ⟨fun _ => badFun, bad_mem, 0, Submodule.zero_mem _, ?_, ?_⟩
  · intro d1 e1 t1 d1' e1' t1' he hsub he' hsh1
    obtain ⟨rfl, -⟩ := shared_tuple hP hP hm hm' he he' hsh1
    refine ⟨rfl, ?_⟩
    have hle : d1' < 3 := by
      have := ((hP.2.1.entity _ _ _ he).1.subperm hsub).length_le
      rw [(hP.2.1.entity _ _ _ he).2.1, (hP.2.1.entity _ _ _ ht).2.1] at this
      omega
    rw [n1, n2]
    show DofsMatch 1 (kmvNodes 3 2) (kmvIds 3 2) (fun a => a.onField (scalarField badFun)) (kmvNodes 3 2) (kmvIds 3 2)
      (fun a => a.onField (scalarField (0 : MvPolynomial (Fin 3) ℝ))) d1' e1 e1'
    rw [htopo] at he he'
    have hb := List.all_eq_true.1 bad_points _ (mem_topoEnts he)
    have hb' := List.all_eq_true.1 bad_points _ (mem_topoEnts he')
    simp only [Bool.or_eq_true, Bool.and_eq_true, decide_eq_true_iff, Bool.not_eq_true', List.all_eq_true, not_le.2 hle, false_or] at hb hb'
    obtain ⟨l, hl⟩ := kmv_at hc he
    obtain ⟨l', hl'⟩ := kmv_at hc he'
    obtain ⟨m, m1, m2⟩ := kmv_dofsOf hc hl
    obtain ⟨m', m1', m2'⟩ := kmv_dofsOf hc hl'
    rw [dofsMatch_iff ⟨m, m1, m2 badFun⟩ ⟨m', m1', m2' 0⟩]
    have hz : ∀ a ∈ t1, a ≠ 0 := fun a ha h0 => by
      have := hsub a ha
      rw [ht123, h0] at this
      simp at this
    have hvan := hb.2.resolve_left (by
      rw [Bool.not_eq_false, List.all_eq_true]
      exact fun a ha => decide_eq_true (hz a ha))
    obtain ⟨y, hy⟩ := List.length_eq_one_iff.1 hb.1
    obtain ⟨y', hy'⟩ := List.length_eq_one_iff.1 hb'.1
    have hv := hvan y (by rw [hy]; exact List.mem_singleton_self _)
    rw [hy, hy']
    simp only [List.map_cons, List.map_nil, map_zero, mul_zero, List.cons.injEq, and_true]
    rw [eval_badFun]
    simp only [ratPt_apply]
    exact_mod_cast hv.2
  · have hmap := (shared_tuple hP hP hm hm' ht ht' hsh).2
    obtain ⟨τ, t1, t2, rfl, t4⟩ := entity_tuple hP ht
    obtain ⟨τ', t1', t2', rfl, t4'⟩ := entity_tuple hP ht'
    have hV := shared_verts hm hm' t2 t2' hmap
    refine ⟨entMap (fun j => tet.v (τ j)) (fun _ => 1 / 3), entMap (fun j => tet.v (τ' j)) (fun _ => 1 / 3), (onEntity_iff tet τ t1 _).2 ⟨_, rfl⟩,
      (onEntity_iff tet τ' t1' _).2 ⟨_, rfl⟩, (shared_points hP hm t1 t2 hV _ _).2 rfl, ?_⟩
    have h0 : τ 0 = 1 ∧ τ 1 = 2 ∧ τ 2 = 3 := by simpa [List.ofFn_succ] using ht123
    have hx : entMap (fun j => tet.v (τ j)) (fun _ : Fin 2 => (1 / 3 : ℝ)) = fun _ => 1 / 3 := by
      funext i
      unfold entMap
      rw [Fin.sum_univ_two]
      simp only [Fin.succ_zero_eq_one, Fin.succ_one_eq_two, h0.1, h0.2.1, h0.2.2]
      fin_cases i <;> norm_num [SimplexCell.v, CellData.toSimplex, ufcTetrahedron]
    rw [hx, eval_badFun]
    norm_num [offset]

/-- The two tetrahedra of the bipyramid meet the hypotheses of the refutation. -/
example : ∃ el o, kmvElement tet ufcTetrahedron (2 : ℕ) = some (el, o) ∧ ∃ u ∈ KMVSpaceOf tet 2, ∃ u' ∈ KMVSpaceOf tet 2,
    ∃ x x', OnEntity tet [1, 2, 3] x ∧ OnEntity tet [0, 1, 2] x' ∧ eval x (u ()) ≠ eval x' (u' ()) := by
  obtain ⟨R, el, -, -, -, h4, -⟩ := kmv_spec (D := 3) 2 (by unfold KMVDegree; omega)
  obtain ⟨u, hu, u', hu', -, x, x', h1, h2, -, h3⟩ := kmv_tetrahedron_refuted h4 bipyramid_lower bipyramid_upper bipyramid_faces.1
    bipyramid_faces.2.1 bipyramid_faces.2.2
  exact ⟨el, _, h4, u, hu, u', hu', x, x', h1, h2, h3⟩

/-- Two tetrahedra above and below their common facet, which both number 3. -/
def twoTets (i : ℕ) : Fin 3 → ℝ := if i = 1 then ![1, 0, 0] else if i = 2 then ![0, 1, 0] else if i = 3 then ![0, 0, 1] else
  if i = 4 then ![0, 0, -1] else 0

theorem twoTets_upper : InMesh twoTets tet 1 0 id := by
  refine ⟨by simp, fun a ha => ?_, ordered_of_increasing tet_sorted strictMono_id⟩
  interval_cases a <;> funext i <;> fin_cases i <;> simp [cellMap, twoTets, SimplexCell.v, CellData.toSimplex, ufcTetrahedron]

theorem twoTets_lower : InMesh twoTets tet !![1, 0, 0; 0, 1, 0; 0, 0, -1] 0 (fun i => if i ≤ 2 then i else i + 1) := by
  refine ⟨?_, fun a ha => ?_, ordered_of_increasing tet_sorted fun a b h => ?_⟩
  · rw [Matrix.det_fin_three]
    simp
  · interval_cases a <;> funext i <;> fin_cases i <;>
      simp [cellMap, twoTets, SimplexCell.v, CellData.toSimplex, ufcTetrahedron, Matrix.mulVec, dotProduct, Fin.sum_univ_three]
  · split_ifs <;> omega

/-- The hypotheses of `kmv_mesh_conforming_partial` for a facet, and of `kmv_triangle_conforming` for an edge, are met. -/
example {el : NodalPart 3 Unit} {o : ℕ} (hel : kmvElement tet ufcTetrahedron (3 : ℕ) = some (el, o)) {u u' : Unit → MvPolynomial (Fin 3) ℝ}
    (hu : u ∈ KMVSpaceOf tet 3) (hu' : u' ∈ KMVSpaceOf tet 3) :=
  kmv_mesh_conforming_partial (D := 3) 3 (by unfold KMVDegree; omega) hel twoTets_upper twoTets_lower (d := 2) (e := 3) (d' := 2) (e' := 3)
    (t := [0, 1, 2]) (t' := [0, 1, 2]) ⟨_, rfl, rfl⟩ ⟨_, rfl, rfl⟩ (fun i => by simp) (Or.inr ⟨rfl, rfl, Or.inl ⟨by norm_num, by norm_num⟩⟩) hu hu'

example {el : NodalPart 2 Unit} {o : ℕ} (hel : kmvElement tri ufcTriangle (5 : ℕ) = some (el, o)) {u u' : Unit → MvPolynomial (Fin 2) ℝ}
    (hu : u ∈ KMVSpaceOf tri 5) (hu' : u' ∈ KMVSpaceOf tri 5) :=
  kmv_triangle_conforming 5 (by unfold KMVDegree; omega) hel square_left square_right (by norm_num) square_edges.1 square_edges.2.1 square_edges.2.2
    hu hu'

example : (∃ el o, kmvElement tri ufcTriangle (5 : ℕ) = some (el, o)) ∧ ∃ el o, kmvElement tet ufcTetrahedron (3 : ℕ) = some (el, o) := by
  obtain ⟨R, el, -, -, -, h, -⟩ := kmv_spec (D := 2) 5 (by unfold KMVDegree; omega)
  obtain ⟨R', el', -, -, -, h', -⟩ := kmv_spec (D := 3) 3 (by unfold KMVDegree; omega)
  exact ⟨⟨el, _, h⟩, el', _, h'⟩

end
end FIAT
