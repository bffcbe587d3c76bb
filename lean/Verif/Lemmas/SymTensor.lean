/-
Symmetric matrix fields: the polynomial set, the nodes `v^T u w`, and the blocks of `_generate_dofs`.
-/
import Verif.Model.SymTensor
import Verif.Lemmas.EntityQuot
import Verif.Lemmas.AnyElement
import Verif.Props.OnCoeffs

namespace FIAT
open MvPolynomial
section
variable {D : ℕ}

/-- Specification: a field of symmetric `D × D` matrices with polynomial entries of degree at most `k`. -/
def IsSymField (k : ℕ) (u : Fin D × Fin D → MvPolynomial (Fin D) ℝ) : Prop :=
  (∀ i j, u (i, j) = u (j, i)) ∧ ∀ c, (u c).totalDegree ≤ k

/-- Specification: the number `v^T u(x) w`. -/
noncomputable def quadForm (u : Fin D × Fin D → MvPolynomial (Fin D) ℝ) (x v w : Fin D → ℝ) : ℝ :=
  ∑ i, ∑ j, v i * eval x (u (i, j)) * w j

/-- The polynomial `v^T u w`. -/
noncomputable def biC (v w : Fin D → ℝ) (u : Fin D × Fin D → MvPolynomial (Fin D) ℝ) : MvPolynomial (Fin D) ℝ :=
  ∑ i, ∑ j, C (v i * w j) * u (i, j)

theorem eval_biC (v w : Fin D → ℝ) (u : Fin D × Fin D → MvPolynomial (Fin D) ℝ) (x : Fin D → ℝ) :
    eval x (biC v w u) = quadForm u x v w := by
  unfold biC quadForm
  simp only [map_sum, map_mul, eval_C]
  exact Finset.sum_congr rfl fun i _ => Finset.sum_congr rfl fun j _ => by ring

theorem biC_degree (v w : Fin D → ℝ) {u : Fin D × Fin D → MvPolynomial (Fin D) ℝ} {k : ℕ} (hu : ∀ c, (u c).totalDegree ≤ k) :
    (biC v w u).totalDegree ≤ k := by
  unfold biC
  refine (totalDegree_finsetSum_le fun i _ => (totalDegree_finsetSum_le fun j _ => ?_))
  refine (totalDegree_mul _ _).trans ?_
  rw [totalDegree_C, zero_add]
  exact hu _

theorem comp2_injective : Function.Injective (comp2 : Fin D × Fin D → List ℕ) := by
  rintro ⟨a, b⟩ ⟨c, d⟩ h
  simp only [comp2, List.cons.injEq, and_true] at h
  exact Prod.ext (Fin.ext h.1) (Fin.ext h.2)

theorem field2_sym {u : Fin D × Fin D → MvPolynomial (Fin D) ℝ} (hu : ∀ i j, u (i, j) = u (j, i)) (a b : ℕ) :
    fieldC comp2 u [a, b] = fieldC comp2 u [b, a] := by
  unfold fieldC
  rw [← (Equiv.prodComm (Fin D) (Fin D)).sum_comp]
  refine Finset.sum_congr rfl fun c _ => ?_
  rw [show u ((Equiv.prodComm (Fin D) (Fin D)) c) = u c from hu c.2 c.1]
  refine if_congr ?_ rfl rfl
  simp only [comp2, Equiv.prodComm_apply, Prod.fst_swap, Prod.snd_swap, List.cons.injEq, and_true]
  tauto

theorem inner_onField (v w x : Fin D → ℝ) {u : Fin D × Fin D → MvPolynomial (Fin D) ℝ} (hu : ∀ i j, u (i, j) = u (j, i)) :
    (pointwiseInnerProduct D (vecNat v) (vecNat w) x).onField (fieldC comp2 u) = quadForm u x v w := by
  unfold Functional.onField
  rw [pointwise_inner_product_apply _ _ _ _ _ _ (fun i j => by rw [field2_sym hu])]
  unfold bilinField quadForm
  rw [Finset.sum_range]
  refine Finset.sum_congr rfl fun i _ => ?_
  rw [Finset.sum_range, Finset.mul_sum]
  refine Finset.sum_congr rfl fun j _ => ?_
  have : fieldC comp2 u [(i : ℕ), (j : ℕ)] = u (i, j) := fieldC_apply comp2_injective u (i, j)
  beta_reduce
  rw [this]
  simp [vecNat, mul_assoc]

theorem inner_wf (v w : ℕ → ℝ) (x : Fin D → ℝ) : (pointwiseInnerProduct D v w x).WF D :=
  ⟨by simp [pointwiseInnerProduct, Dict.WF, Dict.keys], by simp [pointwiseInnerProduct, Dict.WF, Dict.keys], by simp [pointwiseInnerProduct]⟩

/-- The set of symmetric matrix fields over the expansion functions `φ`. -/
noncomputable def symSet (N D : ℕ) (base : List (Fin D → ℝ) → ℕ → ℕ → ℝ) (mats : List (Matrix (Fin N) (Fin N) ℝ)) :
    PolySet ℝ (Fin D → ℝ) N (onSymNumMembers N D) (Fin D × Fin D) :=
  ⟨D, base, fun b c k => (onSymCoeffs N D).1 ((b : ℕ), comp2 c, (k : ℕ)), mats⟩

theorem sym_set_span {N k : ℕ} (φ : Fin N → MvPolynomial (Fin D) ℝ) (hdeg : ∀ i, (φ i).totalDegree ≤ k)
    (h2 : LinearIndependent ℝ φ ∧ Submodule.span ℝ (Set.range φ) = restrictTotalDegree (Fin D) ℝ k)
    (base : List (Fin D → ℝ) → ℕ → ℕ → ℝ) (mats : List (Matrix (Fin N) (Fin N) ℝ)) :
    LinearIndependent ℝ ((symSet N D base mats).member φ) ∧
      ∀ w, w ∈ Submodule.span ℝ (Set.range ((symSet N D base mats).member φ)) ↔ IsSymField k w := by
  obtain ⟨a1, a2⟩ := on_sym_span (K := ℝ) N D
  have hmem : ∀ (x : Fin (onSymNumMembers N D) → ℝ) c, (∑ b, x b • (symSet N D base mats).member φ b) c =
      ∑ i : Fin N, (∑ b, x b * (onSymCoeffs N D).1 ((b : ℕ), comp2 c, (i : ℕ))) • φ i := by
    intro x c
    simp only [Finset.sum_apply, Pi.smul_apply, PolySet.member, symSet, Finset.smul_sum, Finset.sum_smul]
    rw [Finset.sum_comm]
    refine Finset.sum_congr rfl fun i _ => Finset.sum_congr rfl fun b _ => ?_
    simp only [smul_eq_C_mul, map_mul]
    ring
  have hspan : ∀ w, w ∈ Submodule.span ℝ (Set.range ((symSet N D base mats).member φ)) ↔ IsSymField k w := by
    intro w
    rw [Submodule.mem_span_range_iff_exists_fun ℝ]
    constructor
    · rintro ⟨x, rfl⟩
      refine ⟨fun i j => ?_, fun c => ?_⟩
      · rw [hmem, hmem]
        refine Finset.sum_congr rfl fun l _ => ?_
        congr 1
        exact Finset.sum_congr rfl fun b _ => by rw [comp2, comp2, a1 b b.2]
      · rw [hmem]
        refine totalDegree_finsetSum_le fun i _ => ?_
        exact (totalDegree_smul_le _ _).trans (hdeg i)
    · rintro ⟨w1, w2⟩
      have hco : ∀ c, ∃ a : Fin N → ℝ, ∑ i, a i • φ i = w c := by
        intro c
        rw [← Submodule.mem_span_range_iff_exists_fun ℝ, h2.2, mem_restrictTotalDegree]
        exact w2 c
      choose A hA using hco
      obtain ⟨x, hx, -⟩ := a2 (fun i j l => if h : i < D ∧ j < D ∧ l < N then
          (if i ≤ j then A (⟨i, h.1⟩, ⟨j, h.2.1⟩) ⟨l, h.2.2⟩ else A (⟨j, h.2.1⟩, ⟨i, h.1⟩) ⟨l, h.2.2⟩) else 0) (by
        intro i j l
        by_cases h : i < D ∧ j < D ∧ l < N
        · rw [dif_pos h, dif_pos ⟨h.2.1, h.1, h.2.2⟩]
          rcases lt_trichotomy i j with hij | hij | hij
          · rw [if_pos hij.le, if_neg (by omega)]
          · subst hij; rfl
          · rw [if_neg (by omega), if_pos hij.le]
        · rw [dif_neg h, dif_neg (by tauto)])
      refine ⟨x, ?_⟩
      funext c
      obtain ⟨i, j⟩ := c
      rw [hmem]
      have : ∀ l : Fin N, (∑ b, x b * (onSymCoeffs N D).1 ((b : ℕ), comp2 (i, j), (l : ℕ))) = if i ≤ j then A (i, j) l else A (j, i) l := by
        intro l
        have := hx i i.2 j j.2 l l.2
        rw [dif_pos ⟨i.2, j.2, l.2⟩] at this
        unfold comp2
        rw [← this]
        rfl
      simp only [this]
      by_cases hij : i ≤ j
      · simp only [if_pos hij]; exact hA _
      · simp only [if_neg hij]; rw [hA, w1]
  have hli : LinearIndependent ℝ ((symSet N D base mats).member φ) := by
    rw [Fintype.linearIndependent_iff]
    intro x hx b
    obtain ⟨x0, -, hu⟩ := a2 (fun _ _ _ => 0) (fun _ _ _ => rfl)
    have e1 : x = x0 := hu x (by
      intro i hi j hj l hl
      have := congrFun hx (⟨i, hi⟩, ⟨j, hj⟩)
      rw [hmem] at this
      exact (Fintype.linearIndependent_iff.1 h2.1 _ this ⟨l, hl⟩).symm)
    have e2 : (0 : Fin (onSymNumMembers N D) → ℝ) = x0 := hu 0 (by intros; simp)
    rw [e1, ← e2]; rfl
  exact ⟨hli, hspan⟩

/-- The element of symmetric matrix fields whose nodes separate. -/
theorem sym_element_spec (hD : D = 1 ∨ D = 2 ∨ D = 3) (s : SimplexCell (Fin D → ℝ)) (hs : ProperSimplex ℝ s)
    (hv : Increasing fun i : Fin (D + 1) => s.v i) (k : ℕ) (nodes : List (Functional ℝ (Fin D → ℝ)))
    (hlen : nodes.length = D * (D + 1) / 2 * (k + D).choose D) (hwf : ∀ l ∈ nodes, l.WF D) (hord : ∀ l ∈ nodes, l.deriv = [])
    (hsep : ∀ u, IsSymField k u → (∀ l ∈ nodes, l.onField (fieldC comp2 u) = 0) → u = 0) :
    ∃ el, symElement s k nodes = some el ∧ IsNodalC comp2 (IsSymField k) nodes el := by
  obtain ⟨mats, h1, φ, hdeg, h2, h3, h4⟩ := on_core hD s hs hv k
  obtain ⟨hli, hspan⟩ := sym_set_span φ hdeg h2 (expTab s.verts k) mats
  have hpos : 1 ≤ onSymNumMembers ((k + D).choose D) D := by
    unfold onSymNumMembers
    have h1 : 1 ≤ (k + D).choose D := Nat.choose_pos (Nat.le_add_left _ _)
    have h2 : 1 ≤ D * (D + 1) / 2 := by rcases hD with rfl | rfl | rfl <;> norm_num
    exact Nat.mul_pos h2 h1
  obtain ⟨el, e1, -, -, -, -, -, e2⟩ := any_element_nodal (by omega : 1 ≤ D) φ comp2 comp2_injective _ rfl h3 h4 (IsSymField k) hli hspan
    nodes hlen hpos hwf (Or.inr hord) hsep
  refine ⟨el, ?_, e2⟩
  unfold symElement onSymSet
  simp only [h1, Option.bind_eq_bind, Option.bind_some]
  convert e1 <;> rfl

/-! ### Blocks -/

theorem generate_spec {N : Type} {blk : ℕ × ℕ → List N} {L : List (ℕ × ℕ)} {st : ℕ × List N × EntityIds ℕ} (h : LoopInv blk L st) (d num : ℕ)
    (hnd : L.Nodup) (hL : ∀ x ∈ L, x.1 ≠ d) (f : ℕ → Option (ℕ × List N)) (hf : ∀ e < num, f e = some ((blk (d, e)).length, blk (d, e))) :
    ∃ r, generateDofs num f st.1 = some r ∧
      LoopInv blk (L ++ (List.range num).map fun e => (d, e)) (r.1, st.2.1 ++ r.2.1, Dict.put st.2.2 d r.2.2) := by
  unfold generateDofs
  induction num with
  | zero =>
    refine ⟨_, rfl, ?_⟩
    simp only [List.range_zero, List.map_nil, List.append_nil]
    refine ⟨h.cur, h.nodes, fun d' e' => ?_⟩
    rw [← h.ids, EntityIds.at?_put]
    split_ifs with hd
    · subst hd
      rw [h.ids, (blockLoop_spec _ _ hnd _).2, if_neg fun hm => hL _ hm rfl]
      rfl
    · rfl
  | succ n ih =>
    obtain ⟨r, h1, h2⟩ := ih fun e he => hf e (by omega)
    refine ⟨_, by rw [List.range_succ, List.foldlM_append, h1, Option.bind_eq_bind, Option.bind_some, List.foldlM_cons, hf n (by omega)]; rfl, ?_⟩
    rw [List.range_succ, List.map_append, ← List.append_assoc]
    refine ⟨?_, ?_, fun d' e' => ?_⟩
    · rw [blockLoop_append, ← Prod.mk.eta (p := blockLoop _ (L ++ _) _), ← h2.cur]; rfl
    · rw [List.flatMap_append, ← h2.nodes]; simp
    · rw [blockLoop_append]
      change _ = (blockStep _ _ (d, n)).2.at? d' e'
      simp only [blockStep, setIds_at, ← h2.ids, ← h2.cur, EntityIds.at?_put]
      by_cases hd : d = d'
      · subst hd
        rw [if_pos rfl, if_pos rfl, Dict.get?_put]
        by_cases he : n = e'
        · subst he; simp
        · rw [if_neg he, if_neg (by tauto)]
      · rw [if_neg hd, if_neg hd, if_neg (by tauto)]

theorem noVertex_inv {N : Type} {blk : ℕ × ℕ → List N} (h0 : ∀ e, blk (0, e) = []) : LoopInv blk (entsOf D 0) (0, [], noVertexDofs D) := by
  have hmem : ∀ x ∈ entsOf D 0, blk x = [] := by
    rintro ⟨d, e⟩ hx
    have := (mem_entsOf.1 hx).1
    simp only at this
    rw [this]; exact h0 e
  obtain ⟨h1, h2⟩ := blockLoop_spec (fun x => (blk x).length) (entsOf D 0) (entsOf_nodup D 0) (0, [])
  refine ⟨?_, ?_, fun d e => ?_⟩
  · rw [h1, Nat.zero_add]
    symm
    apply List.sum_eq_zero
    intro a ha
    obtain ⟨x, hx, rfl⟩ := List.mem_map.1 ha
    rw [hmem x hx]; rfl
  · symm
    rw [List.flatMap_eq_nil_iff]
    exact hmem
  · rw [h2]
    simp only [noVertexDofs, EntityIds.at?_put]
    by_cases hd : 0 = d
    · subst hd
      rw [if_pos rfl, h0]
      have hget : ∀ n, Dict.get? ((List.range n).map fun i => (i, ([] : List ℕ))) e = if e < n then some [] else none := by
        intro n
        by_cases he : e < n
        · rw [if_pos he]
          refine Dict.get?_of_mem ?_ (List.mem_map.2 ⟨e, List.mem_range.2 he, rfl⟩)
          unfold Dict.WF Dict.keys
          rw [List.map_map]
          simpa [Function.comp_def] using List.nodup_range
        · rw [if_neg he, ← Option.not_isSome_iff_eq_none, Dict.get?_isSome_iff]
          unfold Dict.keys
          simp [he]
      rw [hget]
      refine if_congr ?_ rfl rfl
      rw [mem_entsOf]; simp
    · rw [if_neg hd, if_neg]
      intro hc
      exact hd (mem_entsOf.1 hc).1.symm

/-! ### `v^T u w` as a bilinear form -/

theorem quadForm_symm {u : Fin D × Fin D → MvPolynomial (Fin D) ℝ} (hu : ∀ i j, u (i, j) = u (j, i)) (x v w : Fin D → ℝ) :
    quadForm u x v w = quadForm u x w v := by
  unfold quadForm
  rw [Finset.sum_comm]
  exact Finset.sum_congr rfl fun i _ => Finset.sum_congr rfl fun j _ => by rw [hu j i]; ring

theorem quadForm_sum (u : Fin D × Fin D → MvPolynomial (Fin D) ℝ) (x : Fin D → ℝ) {ι : Type} (T : Finset ι) (c : ι → ℝ)
    (v : ι → Fin D → ℝ) (w : Fin D → ℝ) : quadForm u x (∑ i ∈ T, c i • v i) w = ∑ i ∈ T, c i * quadForm u x (v i) w := by
  unfold quadForm
  simp only [Finset.sum_apply, Pi.smul_apply, smul_eq_mul, Finset.sum_mul, Finset.mul_sum]
  rw [Finset.sum_congr rfl fun i _ => Finset.sum_comm, Finset.sum_comm]
  exact Finset.sum_congr rfl fun i _ => Finset.sum_congr rfl fun j _ => Finset.sum_congr rfl fun l _ => by ring

theorem quadForm_smul (u : Fin D × Fin D → MvPolynomial (Fin D) ℝ) (x : Fin D → ℝ) (c : ℝ) (v w : Fin D → ℝ) :
    quadForm u x (c • v) w = c * quadForm u x v w := by
  have := quadForm_sum u x ({()} : Finset Unit) (fun _ => c) (fun _ => v) w
  simpa using this

theorem quadForm_sub (u : Fin D × Fin D → MvPolynomial (Fin D) ℝ) (x v v' w : Fin D → ℝ) :
    quadForm u x (v - v') w = quadForm u x v w - quadForm u x v' w := by
  unfold quadForm
  simp only [Pi.sub_apply, sub_mul, Finset.sum_sub_distrib]

theorem quadForm_sub' (u : Fin D × Fin D → MvPolynomial (Fin D) ℝ) (x v w w' : Fin D → ℝ) :
    quadForm u x v (w - w') = quadForm u x v w - quadForm u x v w' := by
  unfold quadForm
  simp only [Pi.sub_apply, mul_sub, Finset.sum_sub_distrib]

theorem quadForm_entry (u : Fin D × Fin D → MvPolynomial (Fin D) ℝ) (x : Fin D → ℝ) (i j : Fin D) :
    quadForm u x (Pi.single i 1) (Pi.single j 1) = eval x (u (i, j)) := by
  unfold quadForm
  rw [Finset.sum_eq_single i, Finset.sum_eq_single j]
  · simp
  · intro b _ hb; simp [hb]
  · simp
  · intro b _ hb; simp [hb]
  · simp

/-- Polarization over the vertices of an entity. -/
theorem quadForm_polarize {u : Fin D × Fin D → MvPolynomial (Fin D) ℝ} (hu : ∀ i j, u (i, j) = u (j, i)) (x : Fin D → ℝ) {ι : Type}
    (v : ι → Fin D → ℝ) (A : Set ι) (h : ∀ a ∈ A, ∀ b ∈ A, quadForm u x (v a - v b) (v a - v b) = 0) :
    ∀ a ∈ A, ∀ b ∈ A, ∀ c ∈ A, ∀ f ∈ A, quadForm u x (v a - v b) (v c - v f) = 0 := by
  have h3 : ∀ o ∈ A, ∀ a ∈ A, ∀ b ∈ A, quadForm u x (v a - v o) (v b - v o) = 0 := by
    intro o ho a ha b hb
    have h1 := h a ha o ho
    have h2 := h b hb o ho
    have h4 := h a ha b hb
    rw [show v a - v b = (v a - v o) - (v b - v o) by abel] at h4
    generalize v a - v o = p at *
    generalize v b - v o = q at *
    rw [quadForm_sub, quadForm_sub', quadForm_sub', h1, h2, quadForm_symm hu x q p] at h4
    linarith
  intro a ha b hb c hc f hf
  rw [show v c - v f = (v c - v b) - (v f - v b) by abel, quadForm_sub', h3 b hb a ha c hc, h3 b hb a ha f hf, sub_zero]

theorem BaryForms.sum_grad {v : Fin (D + 1) → Fin D → ℝ} {g : Fin (D + 1) → Fin D → ℝ} {b : Fin (D + 1) → ℝ} (h : BaryForms v g b) :
    ∑ i, g i = 0 := by
  funext l
  have h1 := h.sum_one (Pi.single l 1)
  have h0 := h.sum_one 0
  simp only [eval_linForm, Finset.sum_add_distrib, Pi.zero_apply, mul_zero, Finset.sum_const_zero, add_zero] at h1 h0
  rw [h0] at h1
  rw [Finset.sum_apply, Pi.zero_apply]
  have h2 : ∑ i, ∑ j, g i j * (Pi.single l (1 : ℝ) : Fin D → ℝ) j = ∑ i, g i l := by
    refine Finset.sum_congr rfl fun i _ => ?_
    rw [Finset.sum_eq_single l]
    · simp
    · intro b _ hb; simp [hb]
    · simp
  rw [h2] at h1
  linarith

theorem BaryForms.unit {v : Fin (D + 1) → Fin D → ℝ} {g : Fin (D + 1) → Fin D → ℝ} {b : Fin (D + 1) → ℝ} (h : BaryForms v g b)
    (l : Fin D) : (Pi.single l 1 : Fin D → ℝ) = ∑ i, v i l • g i := by
  funext j
  have h1 := congrFun (h.vector (Pi.single j 1)) l
  have h2 : ∀ i, ∑ m, g i m * (Pi.single j (1 : ℝ) : Fin D → ℝ) m = g i j := by
    intro i
    rw [Finset.sum_eq_single j]
    · simp
    · intro b _ hb; simp [hb]
    · simp
  simp only [h2, Finset.sum_apply, Pi.smul_apply, smul_eq_mul] at h1 ⊢
  rw [Pi.single_apply] at h1 ⊢
  rw [if_congr (eq_comm : j = l ↔ l = j) rfl rfl, ← h1]
  exact Finset.sum_congr rfl fun i _ => mul_comm _ _

/-- A symmetric field with `t^T u t = 0` for all the edges of the cell is zero. -/
theorem sym_zero_of_edges {v : Fin (D + 1) → Fin D → ℝ} (hv : AffineIndependent ℝ v) {u : Fin D × Fin D → MvPolynomial (Fin D) ℝ}
    (hu : ∀ i j, u (i, j) = u (j, i)) (h : ∀ x a b, quadForm u x (v a - v b) (v a - v b) = 0) : u = 0 := by
  obtain ⟨g, b, hb⟩ := baryForms_exist v hv
  have hunit : ∀ l : Fin D, (Pi.single l 1 : Fin D → ℝ) = ∑ i, g i l • (v i - v 0) := by
    intro l
    have h1 := hb.vector (Pi.single l 1)
    have h2 : ∀ i, ∑ j, g i j * (Pi.single l (1 : ℝ) : Fin D → ℝ) j = g i l := by
      intro i
      rw [Finset.sum_eq_single l]
      · simp
      · intro b _ hb; simp [hb]
      · simp
    simp only [h2] at h1
    have h3 := congrFun hb.sum_grad l
    rw [Finset.sum_apply, Pi.zero_apply] at h3
    simp only [smul_sub, Finset.sum_sub_distrib]
    rw [← Finset.sum_smul, h3, zero_smul, sub_zero, h1]
  funext c
  obtain ⟨i, j⟩ := c
  apply MvPolynomial.funext
  intro x
  have hp := quadForm_polarize hu x v Set.univ (fun a _ b _ => h x a b)
  rw [Pi.zero_apply, map_zero, ← quadForm_entry, hunit i, quadForm_sum]
  refine Finset.sum_eq_zero fun a _ => ?_
  rw [hunit j, quadForm_symm hu, quadForm_sum, Finset.sum_eq_zero fun b _ => ?_, mul_zero]
  rw [hp _ trivial _ trivial _ trivial _ trivial, mul_zero]

theorem ents_length {s : SimplexCell (Fin D → ℝ)} (hnum : NumberedSimplex s) {N : Type} {blk : ℕ × ℕ → List N} {nodes : List N}
    {ids : EntityIds ℕ} (h : EntityBlocks s.topo (allEnts D) blk nodes ids) (n : ℕ → ℕ)
    (hn : ∀ d e t, HasEntity s.topo d e t → (blk (d, e)).length = n d) :
    nodes.length = ∑ d ∈ Finset.range (D + 1), (D + 1).choose (d + 1) * n d := by
  rw [h.1]
  unfold allEnts
  rw [List.flatMap_assoc, List.length_flatMap, list_sum_range]
  refine Finset.sum_congr rfl fun d hd => ?_
  have hdD : d ≤ D := by have := Finset.mem_range.1 hd; omega
  rw [List.length_flatMap, List.map_congr_left (g := fun _ => n d), List.map_const', List.sum_replicate, smul_eq_mul]
  · unfold entsOf; simp
  · rintro x hx
    obtain ⟨t, ht⟩ := ents_entity hnum hdD x hx
    have := (mem_entsOf.1 hx).1
    rw [← this]
    exact hn x.1 x.2 t ht

end
end FIAT
