/-
C90: the duals of Regge and Hellan-Herrmann-Johnson elements on a cell and on its image under an affine map.
-/
import Verif.Model.MappingMatrix
import Verif.Lemmas.Transport
import Verif.Props.ConformHHJ

namespace FIAT
open MvPolynomial
section
variable {D : ℕ}

/-- Specification: the matrix `U'` at the image of a point is the push-forward, under the named mapping, of the matrix `U` at the point. -/
def PushesMatrix (mapping : MatrixPullBack) (A U U' : Matrix (Fin D) (Fin D) ℝ) : Prop :=
  match mapping with
  | .doubleCovariant => U' = A⁻¹.transpose * U * A⁻¹
  | .doubleContravariant => U' = (A.det⁻¹ ^ 2) • (A * U * A.transpose)

variable {A : Matrix (Fin D) (Fin D) ℝ} {b : Fin D → ℝ} {s s' : SimplexCell (Fin D → ℝ)}

/-- The matrix `Q` for which the mapping takes `Qᵀ U Q` to `U`. -/
noncomputable def pushFactor (mapping : MatrixPullBack) (A : Matrix (Fin D) (Fin D) ℝ) : Matrix (Fin D) (Fin D) ℝ :=
  match mapping with
  | .doubleCovariant => A
  | .doubleContravariant => A.det • A⁻¹.transpose

theorem pushes_matrix_iff (hA : A.det ≠ 0) (mapping : MatrixPullBack) (U U' : Matrix (Fin D) (Fin D) ℝ) :
    PushesMatrix mapping A U U' ↔ U = (pushFactor mapping A).transpose * U' * pushFactor mapping A := by
  have hu : IsUnit A.det := isUnit_iff_ne_zero.2 hA
  have h1 : A⁻¹ * A = 1 := Matrix.nonsing_inv_mul _ hu
  have h2 : A * A⁻¹ = 1 := Matrix.mul_nonsing_inv _ hu
  have h3 : A.transpose * A⁻¹.transpose = 1 := by rw [← Matrix.transpose_mul, h1, Matrix.transpose_one]
  have h4 : A⁻¹.transpose * A.transpose = 1 := by rw [← Matrix.transpose_mul, h2, Matrix.transpose_one]
  cases mapping
  · change U' = A⁻¹.transpose * U * A⁻¹ ↔ U = A.transpose * U' * A
    constructor
    · rintro rfl
      rw [show A.transpose * (A⁻¹.transpose * U * A⁻¹) * A = (A.transpose * A⁻¹.transpose) * U * (A⁻¹ * A) by simp only [Matrix.mul_assoc], h1, h3,
        Matrix.one_mul, Matrix.mul_one]
    · rintro rfl
      rw [show A⁻¹.transpose * (A.transpose * U' * A) * A⁻¹ = (A⁻¹.transpose * A.transpose) * U' * (A * A⁻¹) by simp only [Matrix.mul_assoc], h2, h4,
        Matrix.one_mul, Matrix.mul_one]
  · change U' = (A.det⁻¹ ^ 2) • (A * U * A.transpose) ↔ U = (A.det • A⁻¹.transpose).transpose * U' * (A.det • A⁻¹.transpose)
    rw [Matrix.transpose_smul, Matrix.transpose_transpose]
    simp only [Matrix.smul_mul, Matrix.mul_smul, smul_smul]
    constructor
    · rintro rfl
      rw [Matrix.mul_smul, Matrix.smul_mul, smul_smul, show A⁻¹ * (A * U * A.transpose) * A⁻¹.transpose = (A⁻¹ * A) * U * (A.transpose * A⁻¹.transpose) by
        simp only [Matrix.mul_assoc], h1, h3, Matrix.one_mul, Matrix.mul_one]
      rw [show A.det * A.det * A.det⁻¹ ^ 2 = 1 by field_simp, one_smul]
    · rintro rfl
      rw [Matrix.mul_smul, Matrix.smul_mul, smul_smul, show A * (A⁻¹ * U' * A⁻¹.transpose) * A.transpose = (A * A⁻¹) * U' * (A⁻¹.transpose * A.transpose) by
        simp only [Matrix.mul_assoc], h2, h4, Matrix.one_mul, Matrix.mul_one]
      rw [show A.det⁻¹ ^ 2 * (A.det * A.det) = 1 by field_simp, one_smul]

theorem matrix_pullWith (Q M : Matrix (Fin D) (Fin D) ℝ) (c : Fin D → ℝ) (u : Fin D × Fin D → MvPolynomial (Fin D) ℝ) (x : Fin D → ℝ) :
    Matrix.of (fun i j => eval x (pullWith Q M c u (i, j))) = Q.transpose * Matrix.of (fun i j => eval (cellMap M c x) (u (i, j))) * Q := by
  ext i j
  rw [Matrix.of_apply, eval_pullWith, Matrix.mul_apply]
  simp only [Matrix.mul_apply, Matrix.transpose_apply, Matrix.of_apply, Finset.sum_mul]
  rw [Finset.sum_comm]
  exact Finset.sum_congr rfl fun k _ => Finset.sum_congr rfl fun l _ => by ring

theorem pushes_field_iff (hA : A.det ≠ 0) (b : Fin D → ℝ) (mapping : MatrixPullBack) (w w' : Fin D × Fin D → MvPolynomial (Fin D) ℝ) :
    (∀ x, PushesMatrix mapping A (Matrix.of fun i j => eval x (w (i, j))) (Matrix.of fun i j => eval (cellMap A b x) (w' (i, j)))) ↔
      w = pullWith (pushFactor mapping A) A b w' := by
  simp only [pushes_matrix_iff hA]
  constructor
  · intro h
    funext ⟨i, j⟩
    refine MvPolynomial.funext fun x => ?_
    have h1 := h x
    rw [← matrix_pullWith] at h1
    exact congrFun (congrFun h1 i) j
  · rintro rfl x
    exact matrix_pullWith _ _ _ _ _

/-- Two lists of nodes whose entity has the same dofs up to the pull-back of fields. -/
theorem field_nodes_carried {Cp : Type} [Fintype Cp] {comp : Cp → List ℕ} {V : (Cp → MvPolynomial (Fin D) ℝ) → Prop} {nodes nodes' : List (Functional ℝ (Fin D → ℝ))}
    {ids : EntityIds ℕ} {d e : ℕ} {F F' : (Cp → MvPolynomial (Fin D) ℝ) → List ℝ} {R : (Cp → MvPolynomial (Fin D) ℝ) → Cp → MvPolynomial (Fin D) ℝ}
    (h : FieldDofsOf comp V nodes ids d e F) (h' : FieldDofsOf comp V nodes' ids d e F') (hR : ∀ w, V w → V (R w)) (hF : ∀ w, V w → F (R w) = F' w)
    {w0 : Cp → MvPolynomial (Fin D) ℝ} (h0 : V w0) {l : List ℕ} (hl : ids.at? d e = some l) {i : ℕ} (hi : i ∈ l) :
    ∃ a a', nodes[i]? = some a ∧ nodes'[i]? = some a' ∧ ∀ w, V w → a.onField (fieldC comp (R w)) = a'.onField (fieldC comp w) := by
  obtain ⟨l1, a1, a2⟩ := h
  obtain ⟨l2, b1, b2⟩ := h'
  rw [hl, Option.some.injEq] at a1 b1
  subst a1 b1
  have key : ∀ w, V w → (nodes[i]?).map (fun a => a.onField (fieldC comp (R w))) = (nodes'[i]?).map (fun a => a.onField (fieldC comp w)) := by
    intro w hw
    have e1 := a2 (R w) (hR w hw)
    rw [hF w hw, ← b2 w hw] at e1
    exact List.map_inj_left.1 e1 i hi
  have hsome : ∃ a, nodes[i]? = some a := by
    have e1 := a2 w0 h0
    have : (nodes[i]?).map (fun a => a.onField (fieldC comp w0)) ∈ (F w0).map some := by
      rw [← e1]
      exact List.mem_map_of_mem hi
    obtain ⟨q, -, hq⟩ := List.mem_map.1 this
    obtain ⟨a, ha, -⟩ := Option.map_eq_some_iff.1 hq.symm
    exact ⟨a, ha⟩
  obtain ⟨a, ha⟩ := hsome
  have k0 := key w0 h0
  rw [ha, Option.map_some] at k0
  obtain ⟨a', ha', -⟩ := Option.map_eq_some_iff.1 k0.symm
  refine ⟨a, a', ha, ha', fun w hw => ?_⟩
  have := key w hw
  rw [ha, ha', Option.map_some, Option.map_some, Option.some.injEq] at this
  exact this

theorem mapM_some_length {α β : Type} {f : α → Option β} : ∀ {l : List α} {l' : List β}, l.mapM f = some l' → l'.length = l.length
  | [], l', h => by
    rw [List.mapM_nil] at h
    cases h
    rfl
  | a :: l, l', h => by
    rw [List.mapM_cons] at h
    obtain ⟨x, -, h⟩ := Option.bind_eq_some_iff.1 h
    obtain ⟨y, hy, h⟩ := Option.bind_eq_some_iff.1 h
    cases h
    rw [List.length_cons, mapM_some_length hy, List.length_cons]

/-- The numbering of the dofs depends on their number on each entity alone. -/
theorem generateDofs_ids {N N' : Type} {num : ℕ} {blk : ℕ → Option (ℕ × List N)} {blk' : ℕ → Option (ℕ × List N')}
    (hb : ∀ e q q', blk e = some q → blk' e = some q' → q'.1 = q.1 ∧ q'.2.length = q.2.length) {offset : ℕ} {r r'}
    (h : generateDofs num blk offset = some r) (h' : generateDofs num blk' offset = some r') :
    r'.1 = r.1 ∧ r'.2.1.length = r.2.1.length ∧ r'.2.2 = r.2.2 := by
  unfold generateDofs at h h'
  have key : ∀ (L : List ℕ) (st : ℕ × List N × Dict ℕ (List ℕ)) (st' : ℕ × List N' × Dict ℕ (List ℕ)) r r', st'.1 = st.1 →
      st'.2.1.length = st.2.1.length → st'.2.2 = st.2.2 →
      L.foldlM (fun (st : ℕ × List N × Dict ℕ (List ℕ)) (e : ℕ) => (blk e).map fun (b : ℕ × List N) =>
        (st.1 + b.1, st.2.1 ++ b.2, Dict.put st.2.2 e (List.range' st.1 b.1))) st = some r →
      L.foldlM (fun (st : ℕ × List N' × Dict ℕ (List ℕ)) (e : ℕ) => (blk' e).map fun (b : ℕ × List N') =>
        (st.1 + b.1, st.2.1 ++ b.2, Dict.put st.2.2 e (List.range' st.1 b.1))) st' = some r' →
      r'.1 = r.1 ∧ r'.2.1.length = r.2.1.length ∧ r'.2.2 = r.2.2 := by
    intro L
    induction L with
    | nil =>
      intro st st' r r' c1 c2 c3 h h'
      rw [List.foldlM_nil] at h h'
      cases h
      cases h'
      exact ⟨c1, c2, c3⟩
    | cons e L ih =>
      intro st st' r r' c1 c2 c3 h h'
      rw [List.foldlM_cons] at h h'
      obtain ⟨q, hq, h⟩ := Option.bind_eq_some_iff.1 h
      obtain ⟨q', hq', h'⟩ := Option.bind_eq_some_iff.1 h'
      obtain ⟨p, hp, rfl⟩ := Option.map_eq_some_iff.1 hq
      obtain ⟨p', hp', rfl⟩ := Option.map_eq_some_iff.1 hq'
      obtain ⟨e1, e2⟩ := hb e p p' hp hp'
      refine ih _ _ _ _ ?_ ?_ ?_ h h'
      · simp only [c1, e1]
      · simp only [List.length_append, c2, e2]
      · simp only [c1, c3, e1]
  exact key _ _ _ r r' rfl rfl rfl h h'

theorem reggeBlock_count (h : MappedCell A b s s') {r dim e : ℕ} {q q'} (h1 : reggeBlock s r dim e = some q) (h2 : reggeBlock s' r dim e = some q') :
    q'.1 = q.1 ∧ q'.2.length = q.2.length := by
  unfold reggeBlock at h1 h2
  obtain ⟨pts, p1, h1⟩ := Option.bind_eq_some_iff.1 h1
  obtain ⟨pts', p1', h2⟩ := Option.bind_eq_some_iff.1 h2
  obtain ⟨ts, t1, rfl⟩ := Option.map_eq_some_iff.1 h1
  obtain ⟨ts', t1', rfl⟩ := Option.map_eq_some_iff.1 h2
  have hpts : pts' = pts.map (cellMap A b) := by
    rw [makePoints_map h, p1] at p1'
    exact (Option.some.inj p1').symm
  have ht : ts'.length = ts.length := by
    unfold faceEdgeTangents at t1 t1'
    obtain ⟨vs, -, t1⟩ := Option.bind_eq_some_iff.1 t1
    obtain ⟨vs', -, t1'⟩ := Option.bind_eq_some_iff.1 t1'
    rw [mapM_some_length t1, mapM_some_length t1']
  subst hpts
  refine ⟨by simp only [List.length_map, ht], ?_⟩
  simp only [List.length_flatMap, List.length_map, ht, List.map_const', List.sum_replicate]

theorem reggeDofs_ids (h : MappedCell A b s s') {r dim offset : ℕ} {q q'} (h1 : reggeDofs s dim r offset = some q)
    (h2 : reggeDofs s' dim r offset = some q') : q'.1.length = q.1.length ∧ q'.2 = q.2 := by
  unfold reggeDofs at h1 h2
  obtain ⟨n, n1, h1⟩ := Option.bind_eq_some_iff.1 h1
  obtain ⟨n', n1', h2⟩ := Option.bind_eq_some_iff.1 h2
  unfold numEnts at n1 n1'
  rw [h.topo, n1, Option.some.injEq] at n1'
  subst n1'
  obtain ⟨g, g1, rfl⟩ := Option.map_eq_some_iff.1 h1
  obtain ⟨g', g1', rfl⟩ := Option.map_eq_some_iff.1 h2
  exact (generateDofs_ids (fun e q q' => reggeBlock_count h) g1 g1').2

theorem reggeDual_ids (h : MappedCell A b s s') {r : ℕ} {nodes nodes' ids ids'} (h1 : reggeDual s r = some (nodes, ids))
    (h2 : reggeDual s' r = some (nodes', ids')) : ids' = ids := by
  unfold reggeDual at h1 h2
  split_ifs at h1 h2 with hD h3
  · obtain ⟨a, a1, h1⟩ := Option.bind_eq_some_iff.1 h1
    obtain ⟨a', a1', h2⟩ := Option.bind_eq_some_iff.1 h2
    obtain ⟨b, b1, h1⟩ := Option.bind_eq_some_iff.1 h1
    obtain ⟨b', b1', h2⟩ := Option.bind_eq_some_iff.1 h2
    obtain ⟨c, c1, h1⟩ := Option.bind_eq_some_iff.1 h1
    obtain ⟨c', c1', h2⟩ := Option.bind_eq_some_iff.1 h2
    obtain ⟨x, x1, rfl⟩ := Option.map_eq_some_iff.1 b1
    obtain ⟨x', x1', rfl⟩ := Option.map_eq_some_iff.1 b1'
    obtain ⟨d1, d2⟩ := reggeDofs_ids h a1 a1'
    dsimp only at x1 x1' c1 c1' h1 h2
    rw [d1] at x1'
    obtain ⟨f1, f2⟩ := reggeDofs_ids h x1 x1'
    rw [List.length_append, d1, f1, ← List.length_append] at c1'
    obtain ⟨-, g2⟩ := reggeDofs_ids h c1 c1'
    rw [Option.some.injEq, Prod.mk.injEq] at h1 h2
    rw [← h1.2, ← h2.2, d2, f2, g2]
  · obtain ⟨a, a1, h1⟩ := Option.bind_eq_some_iff.1 h1
    obtain ⟨a', a1', h2⟩ := Option.bind_eq_some_iff.1 h2
    obtain ⟨b, b1, h1⟩ := Option.bind_eq_some_iff.1 h1
    obtain ⟨b', b1', h2⟩ := Option.bind_eq_some_iff.1 h2
    obtain ⟨c, c1, h1⟩ := Option.bind_eq_some_iff.1 h1
    obtain ⟨c', c1', h2⟩ := Option.bind_eq_some_iff.1 h2
    cases b1
    cases b1'
    obtain ⟨d1, d2⟩ := reggeDofs_ids h a1 a1'
    dsimp only at c1 c1' h1 h2
    rw [d1] at c1'
    obtain ⟨-, g2⟩ := reggeDofs_ids h c1 c1'
    rw [Option.some.injEq, Prod.mk.injEq] at h1 h2
    rw [← h1.2, ← h2.2, d2, g2]

theorem regge_dual_of {r : ℕ} {x nodes ids} (h : regge s r = some (x, nodes, ids)) : reggeDual s r = some (nodes, ids) := by
  unfold regge at h
  obtain ⟨d, hd, h⟩ := Option.bind_eq_some_iff.1 h
  obtain ⟨el, -, h⟩ := Option.bind_eq_some_iff.1 h
  rw [Option.some.injEq, Prod.mk.injEq] at h
  rw [hd, h.2]

theorem hhjDual_ids {A : Matrix (Fin 2) (Fin 2) ℝ} {b : Fin 2 → ℝ} {s s' : SimplexCell (Fin 2 → ℝ)} (h : MappedCell A b s s')
    {nrm nrm' : ℕ → Option (Fin 2 → ℝ)} {r : ℕ} {nodes nodes' ids ids'} (h1 : hhjDual s nrm r = some (nodes, ids))
    (h2 : hhjDual s' nrm' r = some (nodes', ids')) : ids' = ids := by
  unfold hhjDual at h1 h2
  obtain ⟨a, a1, h1⟩ := Option.bind_eq_some_iff.1 h1
  obtain ⟨a', a1', h2⟩ := Option.bind_eq_some_iff.1 h2
  obtain ⟨c, c1, h1⟩ := Option.bind_eq_some_iff.1 h1
  obtain ⟨c', c1', h2⟩ := Option.bind_eq_some_iff.1 h2
  obtain ⟨-, g2, g3⟩ := generateDofs_ids (fun e q q' w1 w2 => by
    unfold hhjEdge at w1 w2
    obtain ⟨pts, p1, w1⟩ := Option.bind_eq_some_iff.1 w1
    obtain ⟨pts', p1', w2⟩ := Option.bind_eq_some_iff.1 w2
    obtain ⟨n, -, rfl⟩ := Option.map_eq_some_iff.1 w1
    obtain ⟨n', -, rfl⟩ := Option.map_eq_some_iff.1 w2
    rw [makePoints_map h, p1] at p1'
    obtain rfl := Option.some.inj p1'
    exact ⟨by simp, by simp⟩) a1 a1'
  unfold hhjTrig at c1 c1'
  obtain ⟨pts, p1, rfl⟩ := Option.map_eq_some_iff.1 c1
  obtain ⟨pts', p1', rfl⟩ := Option.map_eq_some_iff.1 c1'
  rw [makePoints_map h, p1] at p1'
  obtain rfl := Option.some.inj p1'
  rw [Option.some.injEq, Prod.mk.injEq] at h1 h2
  rw [← h1.2, ← h2.2, g3, g2]
  simp only [List.length_map]

theorem hhj_dual_of {s : SimplexCell (Fin 2 → ℝ)} {nrm : ℕ → Option (Fin 2 → ℝ)} {r : ℕ} {x nodes ids}
    (h : hellanHerrmannJohnson s nrm r = some (x, nodes, ids)) : hhjDual s nrm r = some (nodes, ids) := by
  unfold hellanHerrmannJohnson at h
  obtain ⟨d, hd, h⟩ := Option.bind_eq_some_iff.1 h
  obtain ⟨el, -, h⟩ := Option.bind_eq_some_iff.1 h
  rw [Option.some.injEq, Prod.mk.injEq] at h
  rw [hd, h.2]

end
end FIAT
