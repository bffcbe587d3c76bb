/-
C68: H(curl) conformity across the cells of a mesh, for Nedelec elements.
-/
import Verif.Lemmas.CurlNatural

namespace FIAT
open MvPolynomial
section
variable {D : ℕ}

/-- The reference-simplex vertices of the affine map `(M, c)`. -/
def affVerts (M : Matrix (Fin D) (Fin D) ℝ) (c : Fin D → ℝ) : Fin (D + 1) → Fin D → ℝ := Fin.cons c fun j i => c i + M i j

theorem entMap_affVerts (M : Matrix (Fin D) (Fin D) ℝ) (c x : Fin D → ℝ) : entMap (affVerts M c) x = cellMap M c x := by
  unfold entMap cellMap affVerts
  funext i
  simp only [Fin.cons_zero, Fin.cons_succ, Pi.add_apply, Finset.sum_apply, Pi.smul_apply, Pi.sub_apply, smul_eq_mul, Matrix.mulVec,
    dotProduct]
  rw [add_comm]
  congr 1
  exact Finset.sum_congr rfl fun j _ => by ring

/-- The covariant pull-back along an affine map. -/
theorem eval_affPull (M : Matrix (Fin D) (Fin D) ℝ) (c : Fin D → ℝ) (w : Fin D → MvPolynomial (Fin D) ℝ) (j : Fin D) (x : Fin D → ℝ) :
    eval x (tangPull (affVerts M c) w j) = ∑ l, M l j * eval (cellMap M c x) (w l) := by
  rw [eval_tangPull, entMap_affVerts]
  refine Finset.sum_congr rfl fun l _ => ?_
  simp [affVerts]

theorem dot_affPull (M : Matrix (Fin D) (Fin D) ℝ) (c : Fin D → ℝ) (w : Fin D → MvPolynomial (Fin D) ℝ) (u u' x : Fin D → ℝ) :
    ∑ j, (u j - u' j) * eval x (tangPull (affVerts M c) w j) =
      ∑ l, (cellMap M c u l - cellMap M c u' l) * eval (cellMap M c x) (w l) := by
  simp only [eval_affPull, Finset.mul_sum]
  rw [Finset.sum_comm]
  refine Finset.sum_congr rfl fun l _ => ?_
  have : cellMap M c u l - cellMap M c u' l = ∑ j, M l j * (u j - u' j) := by
    simp only [cellMap, Matrix.mulVec, dotProduct, Pi.add_apply, add_sub_add_right_eq_sub, ← Finset.sum_sub_distrib, mul_sub]
  rw [this, Finset.sum_mul]
  exact Finset.sum_congr rfl fun j _ => by ring

/-- Products of the covariant Piola map with edge vectors. -/
theorem covariant_dot {A : Matrix (Fin D) (Fin D) ℝ} (hA : A.det ≠ 0) (b u u' x : Fin D → ℝ) (w : Fin D → MvPolynomial (Fin D) ℝ) :
    (cellMap A b u - cellMap A b u') ⬝ᵥ covariant A w x = ∑ j, (u j - u' j) * eval x (w j) := by
  have hu : IsUnit A.det := isUnit_iff_ne_zero.2 hA
  unfold cellMap covariant
  rw [add_sub_add_right_eq_sub, ← Matrix.mulVec_sub, Matrix.dotProduct_mulVec, Matrix.vecMul_transpose, Matrix.mulVec_mulVec,
    Matrix.nonsing_inv_mul _ hu, Matrix.one_mulVec]
  rfl

theorem dofValues_eq_iff {nodes : List (Functional ℝ (Fin D → ℝ))} {ids : EntityIds ℕ} {ev ev' : Functional ℝ (Fin D → ℝ) → ℝ} {d e : ℕ}
    {P Q : List ℝ} (hP : DofValues nodes ids ev d e P) (hQ : DofValues nodes ids ev' d e Q) {l : List ℕ} (hl : ids.at? d e = some l) :
    P = Q ↔ ∀ i ∈ l, ∃ a, nodes[i]? = some a ∧ ev a - ev' a = 0 := by
  obtain ⟨l1, a1, a2⟩ := hP
  obtain ⟨l2, b1, b2⟩ := hQ
  rw [hl, Option.some.injEq] at a1 b1
  subst a1 b1
  have hinj : Function.Injective (some : ℝ → Option ℝ) := Option.some_injective _
  rw [← (List.map_injective_iff.2 hinj).eq_iff, ← a2, ← b2, List.map_inj_left]
  refine forall₂_congr fun i hi => ?_
  have : nodes[i]?.map ev ∈ l.map fun i => nodes[i]?.map ev := List.mem_map_of_mem hi
  rw [a2] at this
  obtain ⟨r, -, hr⟩ := List.mem_map.1 this
  obtain ⟨a, ha, -⟩ := Option.map_eq_some_iff.1 hr.symm
  rw [ha]
  simp only [Option.map_some, Option.some.injEq, exists_eq_left', sub_eq_zero]

variable {X : ℕ → Fin D → ℝ} {s s' : SimplexCell (Fin D → ℝ)} {A A' : Matrix (Fin D) (Fin D) ℝ} {b b' : Fin D → ℝ} {g g' : ℕ → ℕ}

/-- Every sub-entity of a shared entity is shared. -/
theorem shared_sub (hs' : ProperSimplex ℝ s') (hs : ProperSimplex ℝ s)
    {d e d' e' : ℕ} {t t' : List ℕ} (ht' : HasEntity s'.topo d' e' t') (hsh : SharedEntity g t g' t') {d1 e1 : ℕ} {t1 : List ℕ}
    (h1 : HasEntity s.topo d1 e1 t1) (hsub : ∀ a ∈ t1, a ∈ t) :
    ∃ d1' e1' t1', HasEntity s'.topo d1' e1' t1' ∧ SharedEntity g t1 g' t1' ∧ ∀ a ∈ t1', a ∈ t' := by
  classical
  let S : Finset ℕ := t'.toFinset.filter fun a => g' a ∈ t1.map g
  have hmem : ∀ i, i ∈ t1.map g → ∃ a ∈ S, g' a = i := by
    intro i hi
    obtain ⟨a, ha, rfl⟩ := List.mem_map.1 hi
    obtain ⟨a', ha', ea⟩ := List.mem_map.1 ((hsh (g a)).1 (List.mem_map_of_mem (hsub a ha)))
    exact ⟨a', Finset.mem_filter.2 ⟨List.mem_toFinset.2 ha', by rw [ea]; exact hi⟩, ea⟩
  have hne : S.Nonempty := by
    have hlen := (hs.2.1.entity _ _ _ h1).2.1
    match t1, hlen with
    | a :: t1, _ =>
      obtain ⟨a', h, -⟩ := hmem (g a) (by simp)
      exact ⟨a', h⟩
  obtain ⟨d1', e1', t1', h2, h3⟩ := hs'.2.1.all S hne (fun a ha => by
    rw [Finset.mem_range]
    exact (hs'.2.1.entity _ _ _ ht').2.2 a (List.mem_toFinset.1 (Finset.mem_filter.1 ha).1))
  have h4 : ∀ a, a ∈ t1' ↔ a ∈ S := fun a => by rw [← h3, List.mem_toFinset]
  refine ⟨d1', e1', t1', h2, fun i => ⟨fun hi => ?_, fun hi => ?_⟩, fun a ha => ?_⟩
  · obtain ⟨a, ha, rfl⟩ := hmem i hi
    exact List.mem_map_of_mem ((h4 a).2 ha)
  · obtain ⟨a, ha, rfl⟩ := List.mem_map.1 hi
    exact (Finset.mem_filter.1 ((h4 a).1 ha)).2
  · exact List.mem_toFinset.1 (Finset.mem_filter.1 ((h4 a).1 ha)).1

/-- The map from the one reference cell to the other. -/
theorem cell_transition (hA' : A'.det ≠ 0) (x : Fin D → ℝ) :
    cellMap A' b' (cellMap (A'⁻¹ * A) (A'⁻¹.mulVec (b - b')) x) = cellMap A b x := by
  have hu : IsUnit A'.det := isUnit_iff_ne_zero.2 hA'
  unfold cellMap
  rw [Matrix.mulVec_add, Matrix.mulVec_mulVec, Matrix.mulVec_mulVec, ← Matrix.mul_assoc, Matrix.mul_nonsing_inv _ hu, Matrix.one_mul,
    Matrix.one_mulVec]
  abel

/-- Conformity from the naturality of the dofs. -/
theorem curl_conforming_core (hs : ProperSimplex ℝ s) (hs' : ProperSimplex ℝ s') (hm : InMesh X s A b g)
    (hm' : InMesh X s' A' b' g') {Φ : (d : ℕ) → (Fin d → MvPolynomial (Fin d) ℝ) → List ℝ}
    {nodes nodes' : List (Functional ℝ (Fin D → ℝ))} {ids ids' : EntityIds ℕ} (hnat : CurlNatural s nodes ids Φ)
    (hnat' : CurlNatural s' nodes' ids' Φ) {V : (Fin D → MvPolynomial (Fin D) ℝ) → Prop} {n : ℕ → ℕ}
    (hdofs : HCurlDofs s V n nodes ids) (hdofs' : HCurlDofs s' V n nodes' ids')
    (hVsub : ∀ w w', V w → V w' → V (w - w')) (hVpull : ∀ (vc : Fin (D + 1) → Fin D → ℝ) w, V w → V (tangPull vc w))
    {d e d' e' : ℕ} {t t' : List ℕ} (hd : 1 ≤ d) (hdD : d < D) (ht : HasEntity s.topo d e t) (ht' : HasEntity s'.topo d' e' t')
    (hsh : SharedEntity g t g' t') {w w' : Fin D → MvPolynomial (Fin D) ℝ} (hw : V w) (hw' : V w') :
    (∀ d1 e1 t1 d1' e1' t1', HasEntity s.topo d1 e1 t1 → (∀ a ∈ t1, a ∈ t) → HasEntity s'.topo d1' e1' t1' → SharedEntity g t1 g' t1' →
      d1' = d1 ∧
      DofsMatch 1 nodes ids (fun a => a.onField (fieldOf w)) nodes' ids' (fun a => a.onField (fieldOf w')) d1 e1 e1') ↔
      ∀ x x', OnEntity s t x → OnEntity s' t' x' → cellMap A b x = cellMap A' b' x' →
        ∀ a ∈ t, ∀ c ∈ t, (X (g a) - X (g c)) ⬝ᵥ covariant A w x = (X (g a) - X (g c)) ⬝ᵥ covariant A' w' x' := by
  set M := A'⁻¹ * A with hM
  set cc := A'⁻¹.mulVec (b - b') with hcc
  have hG : ∀ x, cellMap A' b' (cellMap M cc x) = cellMap A b x := cell_transition hm'.regular
  set w'' := tangPull (affVerts M cc) w' with hw''
  have hV'' : V w'' := hVpull _ _ hw'
  have hGv : ∀ {d1 : ℕ} {τ τ' : Fin (d1 + 1) → ℕ}, (∀ j, τ j < D + 1) → (∀ j, τ' j < D + 1) →
      (List.ofFn τ).map g = (List.ofFn τ').map g' → ∀ j, cellMap M cc (s.v (τ j)) = s'.v (τ' j) := by
    intro d1 τ τ' h1 h1' h j
    apply cellMap_injective hm'.regular b'
    rw [hG]
    exact shared_verts hm hm' h1 h1' h j
  have hGe : ∀ {d1 : ℕ} {τ τ' : Fin (d1 + 1) → ℕ}, (∀ j, τ j < D + 1) → (∀ j, τ' j < D + 1) →
      (List.ofFn τ).map g = (List.ofFn τ').map g' → ∀ y, cellMap M cc (entMap (fun j => s.v (τ j)) y) = entMap (fun j => s'.v (τ' j)) y := by
    intro d1 τ τ' h1 h1' h y
    rw [cellMap_entMap]
    simp only [hGv h1 h1' h]
  have hpull : ∀ {d1 : ℕ} {τ τ' : Fin (d1 + 1) → ℕ}, (∀ j, τ j < D + 1) → (∀ j, τ' j < D + 1) →
      (List.ofFn τ).map g = (List.ofFn τ').map g' → tangPull (fun j => s.v (τ j)) w'' = tangPull (fun j => s'.v (τ' j)) w' := by
    intro d1 τ τ' h1 h1' h
    funext a
    apply MvPolynomial.funext
    intro y
    rw [eval_tangPull, eval_tangPull, hw'', dot_affPull, hGe h1 h1' h, hGv h1 h1' h, hGv h1 h1' h]
  -- one entity
  have hone : ∀ d1 e1 t1 e1' t1' l, 1 ≤ d1 → d1 < D → HasEntity s.topo d1 e1 t1 → HasEntity s'.topo d1 e1' t1' → SharedEntity g t1 g' t1' →
      ids.at? d1 e1 = some l →
      (DofsMatch 1 nodes ids (fun a => a.onField (fieldOf w)) nodes' ids' (fun a => a.onField (fieldOf w')) d1 e1 e1' ↔
        ∀ i ∈ l, ∃ node, nodes[i]? = some node ∧ node.onField (fieldOf (w - w'')) = 0) := by
    intro d1 e1 t1 e1' t1' l h1 h2 he he' hsh1 hl
    have hmap := (shared_tuple hs hs' hm hm' he he' hsh1).2
    obtain ⟨τ, t1, t2, rfl, t4⟩ := entity_tuple hs he
    obtain ⟨τ', t1', t2', rfl, t4'⟩ := entity_tuple hs' he'
    rw [dofsMatch_iff (hnat d1 e1 τ h1 h2 he w) (hnat' d1 e1' τ' h1 h2 he' w'), ← hpull t2 t2' hmap]
    have e1 : ∀ L : List ℝ, L.map (1 * ·) = L := fun L => by simp
    rw [e1, dofValues_eq_iff (hnat d1 _ τ h1 h2 he w) (hnat d1 _ τ h1 h2 he w'') hl]
    simp only [onField_sub]
  have hsubd : ∀ {d1 e1 t1}, HasEntity s.topo d1 e1 t1 → (∀ a ∈ t1, a ∈ t) → d1 ≤ d := by
    intro d1 e1 t1 h' hsub
    obtain ⟨n1, n2, -⟩ := hs.2.1.entity _ _ _ ht
    obtain ⟨m1, m2, -⟩ := hs.2.1.entity _ _ _ h'
    have := (m1.subperm hsub).length_le
    omega
  have hconf := hdofs.conforming d e t ht hd hdD (w - w'') (hVsub _ _ hw hV'')
  have hL : (∀ d1 e1 t1 d1' e1' t1', HasEntity s.topo d1 e1 t1 → (∀ a ∈ t1, a ∈ t) → HasEntity s'.topo d1' e1' t1' → SharedEntity g t1 g' t1' →
      d1' = d1 ∧
      DofsMatch 1 nodes ids (fun a => a.onField (fieldOf w)) nodes' ids' (fun a => a.onField (fieldOf w')) d1 e1 e1') ↔
      TangOn s t (w - w'') := by
    rw [← hconf]
    constructor
    · intro h d1 e1 t1 l he hsub hl
      by_cases hd1 : 1 ≤ d1
      · obtain ⟨d1', e1', t1', he', hsh1, -⟩ := shared_sub (d := d) (e := e) hs' hs ht' hsh he hsub
        obtain ⟨rfl, hmatch⟩ := h d1 e1 t1 d1' e1' t1' he hsub he' hsh1
        exact (hone _ e1 t1 e1' t1' l hd1 (lt_of_le_of_lt (hsubd he hsub) hdD) he he' hsh1 hl).1 hmatch
      · obtain ⟨l', l1, l2⟩ := hdofs.count d1 e1 t1 he
        rw [hl, Option.some.injEq] at l1
        rw [if_pos (by omega), List.length_eq_zero_iff] at l2
        rw [l1, l2]
        simp
    · intro h d1 e1 t1 d1' e1' t1' he hsub he' hsh1
      obtain ⟨rfl, -⟩ := shared_tuple hs hs' hm hm' he he' hsh1
      refine ⟨rfl, ?_⟩
      obtain ⟨l, l1, l2⟩ := hdofs.count d1' e1 t1 he
      by_cases hd1 : 1 ≤ d1'
      · exact (hone _ e1 t1 e1' t1' l hd1 (lt_of_le_of_lt (hsubd he hsub) hdD) he he' hsh1 l1).2 (h d1' e1 t1 l he hsub l1)
      · obtain ⟨l', l1', l2'⟩ := hdofs'.count d1' e1' t1' he'
        rw [if_pos (by omega), List.length_eq_zero_iff] at l2 l2'
        subst l2 l2'
        exact ⟨[], [], l1, l1', List.Forall₂.nil⟩
  rw [hL]
  have hlt : ∀ a ∈ t, a < D + 1 := fun a ha => by have := (hs.2.1.entity _ _ _ ht).2.2 a ha; rwa [hs.1] at this
  have hdot : ∀ x, ∀ a ∈ t, ∀ c ∈ t, (∑ j, (s.v a j - s.v c j) * eval x ((w - w'') j) = 0 ↔
      (X (g a) - X (g c)) ⬝ᵥ covariant A w x = (X (g a) - X (g c)) ⬝ᵥ covariant A' w' (cellMap M cc x)) := by
    intro x a ha c hc
    rw [← hm.vertices a (hlt a ha), ← hm.vertices c (hlt c hc), covariant_dot hm.regular, ← hG, ← hG, covariant_dot hm'.regular,
      ← dot_affPull]
    simp only [Pi.sub_apply, map_sub, mul_sub, Finset.sum_sub_distrib]
    exact sub_eq_zero
  constructor
  · intro h x x' hx hx' hxx a ha c hc
    have : x' = cellMap M cc x := cellMap_injective hm'.regular b' (by rw [hG, hxx])
    rw [this]
    exact (hdot x a ha c hc).1 (h x hx a ha c hc)
  · intro h x hx a ha c hc
    refine (hdot x a ha c hc).2 (h x _ hx ?_ (hG x).symm a ha c hc)
    obtain ⟨rfl, hmap⟩ := shared_tuple hs hs' hm hm' ht ht' hsh
    obtain ⟨τ, t1, t2, rfl, t4⟩ := entity_tuple hs ht
    obtain ⟨τ', t1', t2', rfl, t4'⟩ := entity_tuple hs' ht'
    obtain ⟨y, rfl⟩ := (onEntity_iff s τ t1 _).1 hx
    exact (onEntity_iff s' τ' t1' _).2 ⟨y, hGe t2 t2' hmap y⟩

/-- C68: Nedelec elements of the first kind are H(curl)-conforming.  Two cells of a mesh, images of reference cells `s` and `s'`,
share an edge or a face.  Functions `w`, `w'` of the Nedelec space mapped with the covariant Piola map have the same tangential
component there if and only if the dofs of that entity and of its sub-entities are equal, in the order of `entity_dofs`. -/
theorem nedelec_conforming (hD : D = 2 ∨ D = 3) (hs : ProperSimplex ℝ s) (hs' : ProperSimplex ℝ s') (hnum : NumberedSimplex s)
    (hnum' : NumberedSimplex s') (ho : 0 < orientation fun i : Fin (D + 1) => s.v i) (ho' : 0 < orientation fun i : Fin (D + 1) => s'.v i)
    {gj : ℕ → ℕ → List ℝ} (hgj : NodesOK gj) (k : ℕ) (v : DualVariant) (hv : ∀ q, v = .integral q → k + 1 ≤ q)
    {nodes nodes' : List (Functional ℝ (Fin D → ℝ))} {ids ids' : EntityIds ℕ} (hdual : nedDual gj k v D s = some (nodes, ids))
    (hdual' : nedDual gj k v D s' = some (nodes', ids')) (hm : InMesh X s A b g) (hm' : InMesh X s' A' b' g')
    {d e d' e' : ℕ} {t t' : List ℕ} (hd : 1 ≤ d) (hdD : d < D) (ht : HasEntity s.topo d e t) (ht' : HasEntity s'.topo d' e' t')
    (hsh : SharedEntity g t g' t') {w w' : Fin D → MvPolynomial (Fin D) ℝ} (hw : IsNed k w) (hw' : IsNed k w') :
    (∀ d1 e1 t1 d1' e1' t1', HasEntity s.topo d1 e1 t1 → (∀ a ∈ t1, a ∈ t) → HasEntity s'.topo d1' e1' t1' → SharedEntity g t1 g' t1' →
      d1' = d1 ∧
      DofsMatch 1 nodes ids (fun a => a.onField (fieldOf w)) nodes' ids' (fun a => a.onField (fieldOf w')) d1 e1 e1') ↔
      ∀ x x', OnEntity s t x → OnEntity s' t' x' → cellMap A b x = cellMap A' b' x' →
        ∀ a ∈ t, ∀ c ∈ t, (X (g a) - X (g c)) ⬝ᵥ covariant A w x = (X (g a) - X (g c)) ⬝ᵥ covariant A' w' x' := by
  obtain ⟨Φ, h⟩ := ned_natural hD hgj k v hv
  have hspec : ∀ (s : SimplexCell (Fin D → ℝ)) nodes ids, ProperSimplex ℝ s → NumberedSimplex s →
      0 < orientation (fun i : Fin (D + 1) => s.v i) → nedDual gj k v D s = some (nodes, ids) → HCurlDofs s (IsNed k) (nedCount k) nodes ids := by
    intro s nodes ids hs hnum ho h
    obtain ⟨nodes', ids', h1, h2, -⟩ := ned_dual_spec hD s hs hnum ho hgj k v hv
    rw [h, Option.some.injEq, Prod.mk.injEq] at h1
    rw [h1.1, h1.2]
    exact h2
  exact curl_conforming_core hs hs' hm hm' (h s nodes ids hs hnum ho hdual) (h s' nodes' ids' hs' hnum' ho' hdual')
    (hspec s nodes ids hs hnum ho hdual) (hspec s' nodes' ids' hs' hnum' ho' hdual')
    (fun w w' h h' => mem_nedSub.1 (Submodule.sub_mem _ (mem_nedSub.2 h) (mem_nedSub.2 h'))) (fun vc w h => tangPull_ned vc h)
    hd hdD ht ht' hsh hw hw'

end
end FIAT
