/-
C75: which basis functions an entity sees, for tensor products of elements.
-/
import Verif.Props.TensorElement
import Verif.Props.SerendipityTab

namespace FIAT
open MvPolynomial

/-- Coordinate `i` of vertex `a` of a cell. -/
def CellData.coord (c : CellData ℝ) (a i : ℕ) : ℝ := (((c.verts[a]?).getD [])[i]?).getD 0

/-- Specification: `x` lies on the affine hull of the vertices `t` of the cell. -/
def OnHull (c : CellData ℝ) {n : ℕ} (t : List ℕ) (x : Fin n → ℝ) : Prop :=
  ∃ w : ℕ → ℝ, (t.map w).sum = 1 ∧ ∀ i : Fin n, x i = (t.map fun a => w a * c.coord a i).sum

/-- Specification: a finite element function with coefficients `u` in the basis `φ 0, ..., φ (N-1)` vanishes on an entity of the cell if
and only if the coefficients of the dofs on that entity and on its sub-entities vanish.  (So these dofs, and no others, determine the
function on the entity.) -/
def TraceDofs (c : CellData ℝ) (n N : ℕ) (ids : EntityIds Key) (φ : ℕ → MvPolynomial (Fin n) ℝ) : Prop :=
  ∀ d e t, HasEntity c.topo d e t → ∀ u : ℕ → ℝ,
    (∀ x : Fin n → ℝ, OnHull c t x → ∑ i ∈ Finset.range N, u i * eval x (φ i) = 0) ↔ ∀ i, InClosure c.topo ids t i → u i = 0

/-- The points of the cell have `n` coordinates. -/
def CellData.HasDim (c : CellData ℝ) (n : ℕ) : Prop := ∀ v ∈ c.verts, v.length = n

/-- The basis of a product, numbered as `TensorProductElement.tabulate` does. -/
noncomputable def prodBasis {m n : ℕ} (nB : ℕ) (f : ℕ → MvPolynomial (Fin m) ℝ) (g : ℕ → MvPolynomial (Fin n) ℝ) (r : ℕ) :
    MvPolynomial (Fin (m + n)) ℝ := prodPoly (f (r / nB)) (g (r % nB))

theorem productVerts_pair {α : Type} (cA cB : CellData α) (da db : Key) (ea eb : ℕ) (va vb : List ℕ) :
    productVerts [cA, cB] [⟨da, ea, va⟩, ⟨db, eb, vb⟩] = va.flatMap fun a => vb.map fun b => a * cB.verts.length + b := by
  have h : ∀ a : ℕ, (vb.flatMap fun b => [a * cB.verts.length + b]) = vb.map fun b => a * cB.verts.length + b := by
    intro a
    induction vb with
    | nil => rfl
    | cons b vb ih => rw [List.flatMap_cons, ih]; rfl
  simp [productVerts, pyProduct, vshape, ravel, List.map_flatMap, Function.comp_def, h]

theorem sum_range_mul' (M N : ℕ) (F : ℕ → ℝ) :
    ∑ r ∈ Finset.range (M * N), F r = ∑ x ∈ Finset.range M, ∑ y ∈ Finset.range N, F (x * N + y) := by
  induction M with
  | zero => simp
  | succ M ih => rw [Nat.succ_mul, Finset.sum_range_add, ih, Finset.sum_range_succ]

section pair
variable {cA cB : CellData ℝ} {m n : ℕ}

theorem coord_prod (hA : cA.HasDim m) {a b : ℕ} (ha : a < cA.verts.length) (hb : b < cB.verts.length) :
    (∀ i : Fin m, (tensorProductCell [cA, cB]).coord (a * cB.verts.length + b) (Fin.castAdd n i : Fin (m + n)) = cA.coord a i) ∧
    ∀ i : Fin n, (tensorProductCell [cA, cB]).coord (a * cB.verts.length + b) (Fin.natAdd m i : Fin (m + n)) = cB.coord b i := by
  have h := tensor_vertices [cA, cB] [(a, cA.verts[a]), (b, cB.verts[b])]
    (.cons (List.getElem?_eq_getElem ha) (.cons (List.getElem?_eq_getElem hb) .nil))
  simp only [List.map_cons, List.map_nil, vshape, ravel, List.flatten_cons, List.flatten_nil, List.append_nil, List.foldl_cons,
    List.foldl_nil] at h
  have h' : (tensorProductCell [cA, cB]).verts[a * cB.verts.length + b]? = some (cA.verts[a] ++ cB.verts[b]) := by
    simpa [ravel] using h
  have hl : (cA.verts[a]).length = m := hA _ (List.getElem_mem ha)
  constructor
  · intro i
    unfold CellData.coord
    rw [h', List.getElem?_eq_getElem ha, Option.getD_some, Option.getD_some, Fin.val_castAdd,
      List.getElem?_append_left (by rw [hl]; exact i.2)]
  · intro i
    unfold CellData.coord
    rw [h', List.getElem?_eq_getElem hb, Option.getD_some, Option.getD_some, Fin.val_natAdd,
      List.getElem?_append_right (by rw [hl]; omega), hl, Nat.add_sub_cancel_left]

theorem sum_flatMap_pair (va vb : List ℕ) (N : ℕ) (F : ℕ → ℝ) :
    ((va.flatMap fun a => vb.map fun b => a * N + b).map F).sum = (va.map fun a => (vb.map fun b => F (a * N + b)).sum).sum := by
  induction va with
  | nil => rfl
  | cons a va ih => simp [List.map_append, List.sum_append, ih, Function.comp_def]

theorem sum_list_mul (l l' : List ℕ) (F G : ℕ → ℝ) :
    (l.map fun a => (l'.map fun b => F a * G b).sum).sum = (l.map F).sum * (l'.map G).sum := by
  rw [← List.sum_map_mul_right]
  congr 1
  apply List.map_congr_left
  intro a _
  rw [List.sum_map_mul_left]

theorem sum_list_comm (l l' : List ℕ) (F : ℕ → ℕ → ℝ) :
    (l.map fun a => (l'.map fun b => F a b).sum).sum = (l'.map fun b => (l.map fun a => F a b).sum).sum := by
  induction l with
  | nil => simp
  | cons a l ih => simp only [List.map_cons, List.sum_cons, ih, List.sum_map_add]

/-- A point is on a product entity if and only if its two parts are on the factors. -/
theorem onHull_prod (hA : cA.HasDim m) {va vb : List ℕ} (ha : ∀ a ∈ va, a < cA.verts.length) (hb : ∀ b ∈ vb, b < cB.verts.length)
    (x : Fin (m + n) → ℝ) :
    OnHull (tensorProductCell [cA, cB]) (va.flatMap fun a => vb.map fun b => a * cB.verts.length + b) x ↔
      OnHull cA va (x ∘ Fin.castAdd n) ∧ OnHull cB vb (x ∘ Fin.natAdd m) := by
  constructor
  · rintro ⟨w, h1, h2⟩
    rw [sum_flatMap_pair] at h1
    refine ⟨⟨fun a => (vb.map fun b => w (a * cB.verts.length + b)).sum, h1, fun i => ?_⟩,
      ⟨fun b => (va.map fun a => w (a * cB.verts.length + b)).sum, ?_, fun i => ?_⟩⟩
    · rw [Function.comp, h2, sum_flatMap_pair]
      congr 1
      apply List.map_congr_left
      intro a ha'
      rw [← List.sum_map_mul_right]
      congr 1
      apply List.map_congr_left
      intro b hb'
      rw [(coord_prod (n := n) hA (ha a ha') (hb b hb')).1]
    · rw [← h1]
      exact sum_list_comm _ _ _
    · rw [Function.comp, h2, sum_flatMap_pair, sum_list_comm]
      congr 1
      apply List.map_congr_left
      intro b hb'
      rw [← List.sum_map_mul_right]
      congr 1
      apply List.map_congr_left
      intro a ha'
      rw [(coord_prod (n := n) hA (ha a ha') (hb b hb')).2]
  · rintro ⟨⟨w, h1, h2⟩, ⟨w', h1', h2'⟩⟩
    have hw : ∀ a, ∀ b ∈ vb, w ((a * cB.verts.length + b) / cB.verts.length) * w' ((a * cB.verts.length + b) % cB.verts.length) = w a * w' b := by
      intro a b hb'
      have := hb b hb'
      rw [show (a * cB.verts.length + b) / cB.verts.length = a by
        rw [Nat.mul_comm, Nat.mul_add_div (by omega), Nat.div_eq_of_lt this, Nat.add_zero], Nat.add_comm, Nat.add_mul_mod_self_right, Nat.mod_eq_of_lt this]
    refine ⟨fun r => w (r / cB.verts.length) * w' (r % cB.verts.length), ?_, fun i => ?_⟩
    · rw [sum_flatMap_pair]
      rw [show (va.map fun a => (vb.map fun b => w ((a * cB.verts.length + b) / cB.verts.length) *
          w' ((a * cB.verts.length + b) % cB.verts.length)).sum) = va.map fun a => (vb.map fun b => w a * w' b).sum from
        List.map_congr_left fun a _ => congrArg List.sum (List.map_congr_left fun b hb' => hw a b hb')]
      rw [sum_list_mul, h1, h1', one_mul]
    · rw [sum_flatMap_pair]
      rw [show (va.map fun a => (vb.map fun b => w ((a * cB.verts.length + b) / cB.verts.length) *
          w' ((a * cB.verts.length + b) % cB.verts.length) * (tensorProductCell [cA, cB]).coord (a * cB.verts.length + b) i).sum) =
          va.map fun a => (vb.map fun b => w a * w' b * (tensorProductCell [cA, cB]).coord (a * cB.verts.length + b) i).sum from
        List.map_congr_left fun a _ => congrArg List.sum (List.map_congr_left fun b hb' => by rw [hw a b hb'])]
      refine Fin.addCases (fun i => ?_) (fun i => ?_) i
      · have := h2 i
        rw [Function.comp] at this
        rw [this, ← one_mul (List.sum _), ← h1', mul_comm, ← sum_list_mul]
        refine congrArg List.sum (List.map_congr_left fun a ha' => congrArg List.sum (List.map_congr_left fun b hb' => ?_))
        rw [(coord_prod (n := n) hA (ha a ha') (hb b hb')).1]; ring
      · have := h2' i
        rw [Function.comp] at this
        rw [this, ← one_mul (List.sum _), ← h1, ← sum_list_mul]
        refine congrArg List.sum (List.map_congr_left fun a ha' => congrArg List.sum (List.map_congr_left fun b hb' => ?_))
        rw [(coord_prod (n := n) hA (ha a ha') (hb b hb')).2]; ring

theorem pair_index {N x y x' y' : ℕ} (hy : y < N) (hy' : y' < N) (h : x * N + y = x' * N + y') : x = x' ∧ y = y' := by
  have h1 : (x * N + y) / N = x := by rw [Nat.mul_comm, Nat.mul_add_div (by omega), Nat.div_eq_of_lt hy]; simp
  have h2 : (x' * N + y') / N = x' := by rw [Nat.mul_comm, Nat.mul_add_div (by omega), Nat.div_eq_of_lt hy']; simp
  have hx : x = x' := by rw [← h1, ← h2, h]
  subst hx
  exact ⟨rfl, by omega⟩

/-- The closure of a product entity holds the products of the dofs of the closures. -/
theorem inClosure_prod (gA : GoodCell cA) (gB : GoodCell cB) {nB : ℕ} {A B : EntityIds Key} (hA : Topology.WF A) (hB : Topology.WF B)
    (oA : InOrder A) (oB : InOrder B) (sB : SameEntities cB.topo B) (sA : SameEntities cA.topo A)
    (pB : ∀ d e l, B.at? d e = some l → ∀ i ∈ l, i < nB)
    {da db : Key} {ea eb : ℕ} {va vb : List ℕ} (hva : HasEntity cA.topo da ea va) (hvb : HasEntity cB.topo db eb vb)
    (x y : ℕ) (hy : y < nB) :
    InClosure (tensorProductCell [cA, cB]).topo (tensorEntityIds nB A B)
        (va.flatMap fun a => vb.map fun b => a * cB.verts.length + b) (x * nB + y) ↔
      InClosure cA.topo A va x ∧ InClosure cB.topo B vb y := by
  constructor
  · rintro ⟨D', e', v', l', h1, h2, h3, h4⟩
    obtain ⟨F, hF, rfl, -, he, rfl⟩ := tensor_entity_conv [cA, cB] (by simp [gA, gB]) _ _ _ h1
    obtain ⟨fa, hfa, F, hF', rfl⟩ : ∃ f, HasEntity cA.topo f.dim f.ent f.vs ∧ ∃ F', IsFactors [cB] F' ∧ F = f :: F' := by
      cases hF with | @cons _ f _ F' q1 q2 => exact ⟨f, q1, F', q2, rfl⟩
    obtain ⟨fb, hfb, rfl⟩ : ∃ f, HasEntity cB.topo f.dim f.ent f.vs ∧ F = [f] := by
      cases hF' with | @cons _ f _ F' q1 q2 => cases q2; exact ⟨f, q1, rfl⟩
    obtain ⟨da', db', ea', eb', la, lb, hD, k1, k2, ke, rfl⟩ := (tensor_dofs_at nB A B hA hB oA oB _ _ _).1 h3
    simp only [List.map_cons, List.map_nil] at hD he
    have hD' := Key.tup_injective hD
    simp only [List.cons.injEq, and_true] at hD'
    obtain ⟨rfl, rfl⟩ := hD'
    have hnum := numListed_eq gB.wf hB sB k2
    have hlt : ∀ {e v}, HasEntity cB.topo fb.dim e v → e < numEntities cB.topo fb.dim := by
      rintro e v ⟨es, a1, a2⟩
      have := gB.numbered _ _ (Dict.mem_of_get? a1)
      have h5 : e ∈ pySorted (Dict.keys es) := by
        rw [mem_pySorted]
        exact Dict.get?_isSome_iff.1 (by rw [a2]; rfl)
      rw [this, List.mem_range] at h5
      unfold numEntities
      rw [a1]; exact h5
    obtain ⟨vb', hvb'⟩ := (sB _ _).1 (by rw [k2]; rfl)
    have he' : fa.ent * numEntities cB.topo fb.dim + fb.ent = ea' * numEntities cB.topo fb.dim + eb' := by
      rw [← hnum, ← ke, he, hnum]
      simp [ravel, eshape]
    obtain ⟨rfl, rfl⟩ := pair_index (hlt hfb) (hlt hvb') he'
    obtain ⟨x', hx', y', hy', hxy⟩ := mem_prodDofs.1 h4
    obtain ⟨rfl, rfl⟩ := pair_index hy (pB _ _ _ k2 _ hy') hxy
    rw [show productVerts [cA, cB] [fa, fb] = _ from productVerts_pair cA cB fa.dim fb.dim fa.ent fb.ent fa.vs fb.vs] at h2
    obtain ⟨a0, ha0⟩ := List.exists_mem_of_ne_nil _ (gA.nonempty _ _ _ hfa)
    obtain ⟨b0, hb0⟩ := List.exists_mem_of_ne_nil _ (gB.nonempty _ _ _ hfb)
    have hmem : ∀ a ∈ fa.vs, ∀ b ∈ fb.vs, a ∈ va ∧ b ∈ vb := by
      intro a ha b hb
      have := h2 (a * cB.verts.length + b) (List.mem_flatMap.2 ⟨a, ha, List.mem_map.2 ⟨b, hb, rfl⟩⟩)
      obtain ⟨a', ha', h⟩ := List.mem_flatMap.1 this
      obtain ⟨b', hb', h⟩ := List.mem_map.1 h
      obtain ⟨rfl, rfl⟩ := pair_index (gB.vertex_lt _ _ _ hvb _ hb') (gB.vertex_lt _ _ _ hfb _ hb) h
      exact ⟨ha', hb'⟩
    exact ⟨⟨_, _, _, la, hfa, fun a ha => (hmem a ha b0 hb0).1, k1, hx'⟩,
      ⟨_, _, _, lb, hfb, fun b hb => (hmem a0 ha0 b hb).2, k2, hy'⟩⟩
  · rintro ⟨⟨da', ea', va', la, h1, h2, h3, h4⟩, ⟨db', eb', vb', lb, k1, k2, k3, k4⟩⟩
    obtain ⟨e, l, a1, a2, a3⟩ := tensor_dof_entity cA cB gA gB nB A B hA hB oA oB sA sB h3 k3 h1 k1
    refine ⟨_, e, _, l, a2, ?_, a1, (a3 _).2 ⟨x, h4, y, k4, rfl⟩⟩
    rw [productVerts_pair]
    intro r hr
    obtain ⟨a, ha, h⟩ := List.mem_flatMap.1 hr
    obtain ⟨b, hb, rfl⟩ := List.mem_map.1 h
    exact List.mem_flatMap.2 ⟨a, h2 a ha, List.mem_map.2 ⟨b, k2 b hb, rfl⟩⟩

/-- C75: if the dofs of the closure of an entity determine the trace in both factors, they do in the product. -/
theorem tensor_trace_dofs (gA : GoodCell cA) (gB : GoodCell cB) (dA : cA.HasDim m) {nA nB : ℕ} {A B : EntityIds Key}
    (hA : Topology.WF A) (hB : Topology.WF B)
    (oA : InOrder A) (oB : InOrder B) (sA : SameEntities cA.topo A) (sB : SameEntities cB.topo B)
    (pA : DofsPartition A nA) (pB : DofsPartition B nB)
    {f : ℕ → MvPolynomial (Fin m) ℝ} {g : ℕ → MvPolynomial (Fin n) ℝ}
    (tA : TraceDofs cA m nA A f) (tB : TraceDofs cB n nB B g) :
    TraceDofs (tensorProductCell [cA, cB]) (m + n) (nA * nB) (tensorEntityIds nB A B) (prodBasis nB f g) := by
  intro D e t ht u
  obtain ⟨F, hF, rfl, -, -, rfl⟩ := tensor_entity_conv [cA, cB] (by simp [gA, gB]) _ _ _ ht
  obtain ⟨fa, hfa, F, hF', rfl⟩ : ∃ f, HasEntity cA.topo f.dim f.ent f.vs ∧ ∃ F', IsFactors [cB] F' ∧ F = f :: F' := by
    cases hF with | @cons _ f _ F' q1 q2 => exact ⟨f, q1, F', q2, rfl⟩
  obtain ⟨fb, hfb, rfl⟩ : ∃ f, HasEntity cB.topo f.dim f.ent f.vs ∧ F = [f] := by
    cases hF' with | @cons _ f _ F' q1 q2 => cases q2; exact ⟨f, q1, rfl⟩
  rw [show productVerts [cA, cB] [fa, fb] = _ from productVerts_pair cA cB fa.dim fb.dim fa.ent fb.ent fa.vs fb.vs]
  have hva := gA.vertex_lt _ _ _ hfa
  have hvb := gB.vertex_lt _ _ _ hfb
  have hsum : ∀ x : Fin (m + n) → ℝ, ∑ r ∈ Finset.range (nA * nB), u r * eval x (prodBasis nB f g r) =
      ∑ a ∈ Finset.range nA, (∑ b ∈ Finset.range nB, u (a * nB + b) * eval (x ∘ Fin.natAdd m) (g b)) * eval (x ∘ Fin.castAdd n) (f a) := by
    intro x
    rw [sum_range_mul']
    refine Finset.sum_congr rfl fun a _ => ?_
    rw [Finset.sum_mul]
    refine Finset.sum_congr rfl fun b hb => ?_
    have hb' := Finset.mem_range.1 hb
    unfold prodBasis
    rw [eval_prodPoly, show (a * nB + b) / nB = a by
        rw [Nat.mul_comm, Nat.mul_add_div (by omega), Nat.div_eq_of_lt hb', Nat.add_zero], Nat.add_comm, Nat.add_mul_mod_self_right, Nat.mod_eq_of_lt hb']
    ring
  have hclA : ∀ {x}, InClosure cA.topo A fa.vs x → x < nA := by
    rintro x ⟨d', e', v', l', -, -, h3, h4⟩
    exact (pA.1 _ _ _ h3).2 _ h4
  have hclB : ∀ {y}, InClosure cB.topo B fb.vs y → y < nB := by
    rintro x ⟨d', e', v', l', -, -, h3, h4⟩
    exact (pB.1 _ _ _ h3).2 _ h4
  have key : (∀ x : Fin (m + n) → ℝ, OnHull cA fa.vs (x ∘ Fin.castAdd n) → OnHull cB fb.vs (x ∘ Fin.natAdd m) →
      ∑ a ∈ Finset.range nA, (∑ b ∈ Finset.range nB, u (a * nB + b) * eval (x ∘ Fin.natAdd m) (g b)) * eval (x ∘ Fin.castAdd n) (f a) = 0) ↔
      ∀ p : Fin m → ℝ, OnHull cA fa.vs p → ∀ q : Fin n → ℝ, OnHull cB fb.vs q →
        ∑ a ∈ Finset.range nA, (∑ b ∈ Finset.range nB, u (a * nB + b) * eval q (g b)) * eval p (f a) = 0 := by
    constructor
    · intro h p hp q hq
      have e1 : (Fin.append p q) ∘ Fin.castAdd n = p := by funext i; simp
      have e2 : (Fin.append p q) ∘ Fin.natAdd m = q := by funext i; simp
      have := h (Fin.append p q) (by rwa [e1]) (by rwa [e2])
      rwa [e1, e2] at this
    · intro h x h1 h2
      exact h _ h1 _ h2
  have step : (∀ x : Fin (m + n) → ℝ, OnHull (tensorProductCell [cA, cB]) (fa.vs.flatMap fun a => fb.vs.map fun b => a * cB.verts.length + b) x →
      ∑ r ∈ Finset.range (nA * nB), u r * eval x (prodBasis nB f g r) = 0) ↔
      ∀ q : Fin n → ℝ, OnHull cB fb.vs q → ∀ p : Fin m → ℝ, OnHull cA fa.vs p →
        ∑ a ∈ Finset.range nA, (∑ b ∈ Finset.range nB, u (a * nB + b) * eval q (g b)) * eval p (f a) = 0 := by
    rw [show (∀ q : Fin n → ℝ, OnHull cB fb.vs q → ∀ p : Fin m → ℝ, OnHull cA fa.vs p →
        ∑ a ∈ Finset.range nA, (∑ b ∈ Finset.range nB, u (a * nB + b) * eval q (g b)) * eval p (f a) = 0) ↔ _ from
        ⟨fun h p hp q hq => h q hq p hp, fun h q hq p hp => h p hp q hq⟩, ← key]
    constructor
    · intro h x h1 h2
      rw [← hsum]
      exact h x ((onHull_prod dA hva hvb x).2 ⟨h1, h2⟩)
    · intro h x hx
      rw [hsum]
      exact h x ((onHull_prod dA hva hvb x).1 hx).1 ((onHull_prod dA hva hvb x).1 hx).2
  rw [step]
  have hx : (∀ q : Fin n → ℝ, OnHull cB fb.vs q → ∀ p : Fin m → ℝ, OnHull cA fa.vs p →
        ∑ a ∈ Finset.range nA, (∑ b ∈ Finset.range nB, u (a * nB + b) * eval q (g b)) * eval p (f a) = 0) ↔
      ∀ a, InClosure cA.topo A fa.vs a → ∀ b, InClosure cB.topo B fb.vs b → u (a * nB + b) = 0 := by
    have hA' := tA _ _ _ hfa
    have hB' := tB _ _ _ hfb
    constructor
    · intro h a ha
      refine (hB' fun b => u (a * nB + b)).1 fun q hq => ?_
      exact (hA' fun a => ∑ b ∈ Finset.range nB, u (a * nB + b) * eval q (g b)).1 (h q hq) a ha
    · intro h q hq
      refine (hA' fun a => ∑ b ∈ Finset.range nB, u (a * nB + b) * eval q (g b)).2 fun a ha => ?_
      exact (hB' fun b => u (a * nB + b)).2 (h a ha) q hq
  rw [hx]
  constructor
  · intro h i hi
    have hi' : i < nA * nB := by
      obtain ⟨d', e', v', l', -, -, h3, h4⟩ := hi
      exact ((tensor_dofs_partition nA nB A B hA hB oA oB pA pB).1 _ _ _ h3).2 _ h4
    have hnB : 0 < nB := by
      rcases Nat.eq_zero_or_pos nB with h0 | h0
      · subst h0; simp at hi'
      · exact h0
    have hdm : i = i / nB * nB + i % nB := (Nat.div_add_mod' i nB).symm
    rw [hdm] at hi ⊢
    have := (inClosure_prod gA gB hA hB oA oB sB sA (fun d e l hl => (pB.1 d e l hl).2) hfa hfb _ _ (Nat.mod_lt _ hnB)).1 hi
    exact h _ this.1 _ this.2
  · intro h a ha b hb
    exact h _ ((inClosure_prod gA gB hA hB oA oB sB sA (fun d e l hl => (pB.1 d e l hl).2) hfa hfb _ _ (hclB hb)).2 ⟨ha, hb⟩)

end pair
end FIAT
