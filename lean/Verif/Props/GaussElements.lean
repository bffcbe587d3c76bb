/-
C48: the one-dimensional spectral elements GaussLegendre, GaussLobattoLegendre and GaussRadau.
-/
import Verif.Model.GaussElements
import Verif.Props.PointElement
import Verif.Props.Lobatto
import Verif.Props.Barycentric

namespace FIAT
open Polynomial

/-! ### Specification -/

/-- The topology of every shipped line cell (reference_element.py:478-521). -/
def lineTopo : Topology ℕ := [(0, [(0, [0]), (1, [1])]), (1, [(0, [0, 1])])]

/-- The polynomial `ℓ j` has degree at most `k`, is 1 at node `j` and 0 at the other nodes. -/
def LineNodal (k : ℕ) (nodes : List (Fin 1 → ℝ)) (ℓ : ℕ → ℝ[X]) : Prop :=
  ∀ j ≤ k, (ℓ j).natDegree ≤ k ∧ ∀ (i : ℕ) (x : Fin 1 → ℝ), nodes[i]? = some x → (ℓ j).eval (x 0) = if i = j then 1 else 0

/-- The map of the points of an entity to the cell: the identity for the cell, constant for a vertex. -/
def LineEntityMap (s : SimplexCell (Fin 1 → ℝ)) (entity : Option (ℕ × ℕ)) (tr : (Fin 1 → ℝ) → (Fin 1 → ℝ)) : Prop :=
  (entity = none ∧ tr = fun x => x) ∨ (entity = some (1, 0) ∧ tr = fun x => x) ∨
    ∃ i, i ≤ 1 ∧ entity = some (0, i) ∧ tr = fun _ => s.v i

/-- The point is a node and farther than 1e-8 from the other nodes, or farther than 1e-8 from all the nodes. -/
def AwayFrom (nodes : List (Fin 1 → ℝ)) (x : Fin 1 → ℝ) : Prop :=
  (∃ (i : ℕ) (y : Fin 1 → ℝ), nodes[i]? = some y ∧ x = y ∧ ∀ (k : ℕ) (z : Fin 1 → ℝ), k ≠ i → nodes[k]? = some z → 1e-8 < |x 0 - z 0|) ∨
    ∀ z ∈ nodes, 1e-8 < |x 0 - z 0|

/-- `tabulate(order, points, entity)` of the elements that override it: for every number of derivatives up to `order` the table
of the derivatives of the nodal basis at the points mapped to the cell. -/
def BaryTabulates {k : ℕ} (el : LineElement k) (s : SimplexCell (Fin 1 → ℝ)) (ℓ : ℕ → ℝ[X]) : Prop :=
  ∀ (order : ℕ) (points : List (Fin 1 → ℝ)) (entity : Option (ℕ × ℕ)) (tr : (Fin 1 → ℝ) → (Fin 1 → ℝ)), LineEntityMap s entity tr →
    (∀ x ∈ points, AwayFrom el.nodes (tr x)) →
    ∃ res, el.tabulate s order points entity = some res ∧ (∀ α, α ∈ Dict.keys res ↔ ∃ r ≤ order, α = [r]) ∧
      ∀ r T, Dict.get? res [r] = some T → ∀ i p, T i p = (derivative^[r] (ℓ i)).eval (tr (points.get p) 0)

/-- What numpy's `leggauss(m)` returns (a library, not modelled): the rule is exact for degree `2m - 1`. -/
def IsLeggauss (m : ℕ) (xs ws : List ℝ) : Prop :=
  xs.length = m ∧ ws.length = m ∧ IntegratesOn xs ws (2 * m - 1)

/-! ### Lemmas -/

private theorem line_transform {s : SimplexCell (Fin 1 → ℝ)} (ht : s.topo = lineTopo) (hn : s.verts.length = 2)
    {entity : Option (ℕ × ℕ)} {tr : (Fin 1 → ℝ) → (Fin 1 → ℝ)} (h : LineEntityMap s entity tr) :
    lineTransform s (entity.getD (1, 0)) = some tr := by
  rcases h with ⟨rfl, rfl⟩ | ⟨rfl, rfl⟩ | ⟨i, hi, rfl, rfl⟩
  · rfl
  · rfl
  · have hv : s.verts[i]? = some (s.v i) := by
      rw [SimplexCell.v, List.getElem?_eq_getElem (by omega)]; rfl
    rcases i with _ | _ | i
    · simp [lineTransform, ht, lineTopo, Dict.get?, hv]
    · simp at hv; simp [lineTransform, ht, lineTopo, Dict.get?, hv]
    · omega

private theorem bary_tabulates {k : ℕ} (el : LineElement k) (s : SimplexCell (Fin 1 → ℝ)) (ht : s.topo = lineTopo)
    (hn : s.verts.length = 2) (hlen : el.nodes.length = k + 1) (hnd : el.nodes.Nodup) :
    ∃ ℓ, LineNodal k el.nodes ℓ ∧ BaryTabulates el s ℓ := by
  have hx : Function.Injective (fun i : Fin el.nodes.length => el.nodes.get i 0) := by
    intro i j hij
    refine (List.nodup_iff_injective_get.1 hnd) (_root_.funext fun l => ?_)
    rw [Subsingleton.elim l 0]; exact hij
  refine ⟨fun j => if h : j < el.nodes.length then lagrangeBasis (fun i : Fin el.nodes.length => el.nodes.get i 0) ⟨j, h⟩ else 0, ?_, ?_⟩
  · intro j hj
    beta_reduce
    rw [dif_pos (by omega)]
    constructor
    · rw [lagrangeBasis, natDegree_le_iff_degree_le, Lagrange.degree_basis (hx.injOn) (Finset.mem_univ _), Finset.card_univ, Fintype.card_fin,
        hlen]
      exact le_rfl
    · intro i x hix
      obtain ⟨hi, rfl⟩ := List.getElem?_eq_some_iff.1 hix
      rw [lagrangeBasis]
      by_cases hij : i = j
      · subst hij
        rw [if_pos rfl]
        exact Lagrange.eval_basis_self (v := fun i : Fin el.nodes.length => el.nodes.get i 0) hx.injOn (Finset.mem_univ (⟨i, hi⟩ : Fin el.nodes.length))
      · rw [if_neg hij]
        exact Lagrange.eval_basis_of_ne (v := fun i : Fin el.nodes.length => el.nodes.get i 0) (i := ⟨j, by omega⟩) (j := ⟨i, hi⟩)
          (fun h => hij (Fin.mk.inj h).symm) (Finset.mem_univ _)
  · intro order points entity tr he haway
    obtain ⟨res, h1, h2, h3⟩ := barycentric_spec (fun i : Fin el.nodes.length => el.nodes.get i 0) hx (by omega)
      (fun p => tr (points.get p) 0) (by
        intro p
        rcases haway _ (List.get_mem points p) with ⟨i, y, hy, hxy, hfar⟩ | hfar
        · obtain ⟨hi, rfl⟩ := List.getElem?_eq_some_iff.1 hy
          refine Or.inl ⟨⟨i, hi⟩, by rw [hxy]; rfl, fun m hm => ?_⟩
          exact hfar m _ (fun h => hm (Fin.ext h)) (List.getElem?_eq_getElem m.2)
        · exact Or.inr fun m => hfar _ (List.get_mem _ _)) order
    refine ⟨res, ?_, h2, ?_⟩
    · unfold LineElement.tabulate
      rw [line_transform ht hn he, Option.bind_eq_bind, Option.bind_some, h1]
    · intro r T hT i p
      beta_reduce
      rw [h3 r T hT i p, dif_pos i.2]

private theorem line_element {k : ℕ} (s : SimplexCell (Fin 1 → ℝ)) (hs : ProperSimplex ℝ s) (hv : 1e-10 < s.v 1 0 - s.v 0 0)
    (Q : QRule ℝ (Fin 1 → ℝ)) (ids : EntityIds ℕ) (hlen : Q.pts.length = k + 1) (hnd : Q.pts.Nodup) :
    ∃ el, lineElement s k (some Q) ids = some el ∧ el.nodes = Q.pts ∧ el.ids = ids ∧
      ∃ φ : Fin ((k + 1).choose 1) → MvPolynomial (Fin 1) ℝ, (∀ j, (φ j).totalDegree ≤ k) ∧
      (∀ (i : ℕ) x, Q.pts[i]? = some x → ∀ j, MvPolynomial.eval x (φ j) = if i = (j : ℕ) then 1 else 0) ∧
      ∀ (pts : List (Fin 1 → ℝ)) (order : ℕ), ∃ res, el.polySet.tabulate pts order = some res ∧
        (∀ α, α ∈ Dict.keys res ↔ α.length = 1 ∧ α.sum ≤ order) ∧
        ∀ α T, Dict.get? res α = some T → ∀ i c (j : ℕ) x, pts[j]? = some x → T i c j = MvPolynomial.eval x (iterDeriv α (φ i)) := by
  obtain ⟨el, h1, h2⟩ := point_element_spec (D := 1) (Or.inl rfl) s hs (fun _ => hv) k Q.pts (by rw [hlen]; simp)
    (line_unisolvent k Q.pts hlen hnd)
  refine ⟨⟨Q.pts, el, ids⟩, ?_, rfl, rfl, h2⟩
  unfold lineElement
  rw [Option.bind_eq_bind, Option.bind_some, h1, Option.bind_eq_bind, Option.bind_some]

theorem mapped_nodup (v : Fin 2 → Fin 1 → ℝ) (hv : 0 < orientation v) (xs ws : List ℝ) (hl : ws.length = xs.length)
    (hnd : xs.Nodup) (Q : QRule ℝ (Fin 1 → ℝ)) (hQ : mappedRule (List.ofFn v) (xs.map fun x _ => x) ws = some Q) :
    Q.pts.Nodup ∧ (∀ i : ℕ, xs[i]? = some (-1) → Q.pts[i]? = some (v 0)) ∧ (∀ i : ℕ, xs[i]? = some 1 → Q.pts[i]? = some (v 1)) := by
  obtain ⟨A, b, Q', r1, r2, r3, r4, -⟩ := mapped_rule_spec v (xs.map fun x (_ : Fin 1) => x) ws (by simp [hl])
  rw [hQ, Option.some.injEq] at r1
  subst r1
  have hA : ∀ x : ℝ, A.mulVec (fun _ => x) + b = fun i => A i 0 * x + b i := by
    intro x; funext i; simp [Matrix.mulVec, dotProduct]
  have hv0 : v 0 = A.mulVec (fun _ => -1) + b := by
    rw [← r2 0]; congr 2
  have hv1 : v 1 = A.mulVec (fun _ => 1) + b := by
    rw [← r2 1]; congr 2
    funext l
    fin_cases l
    simp [dvert]
  have hA0 : A 0 0 ≠ 0 := by
    intro h0
    have h := hv
    simp only [orientation, Matrix.det_unique, Matrix.of_apply, Fin.default_eq_zero] at h
    rw [show (Fin.succ (0 : Fin 1)) = 1 from rfl, hv0, hv1, hA, hA] at h
    simp [h0] at h
  refine ⟨?_, ?_, ?_⟩
  · rw [r3, List.map_map]
    refine hnd.map fun x y hxy => ?_
    have := congrFun hxy 0
    simp only [Function.comp_apply, hA] at this
    exact mul_left_cancel₀ hA0 (by linarith)
  · intro i hi
    rw [r3, List.map_map, List.getElem?_map, hi, hv0]; rfl
  · intro i hi
    rw [r3, List.map_map, List.getElem?_map, hi, hv1]; rfl

private theorem line_orientation (s : SimplexCell (Fin 1 → ℝ)) (hv : 1e-10 < s.v 1 0 - s.v 0 0) :
    0 < orientation fun i : Fin 2 => s.v i := by
  simp only [orientation, Matrix.det_unique, Matrix.of_apply, Fin.default_eq_zero]
  exact lt_trans (by norm_num) hv

private theorem at_lineTopo (d e : ℕ) (v : List ℕ) : HasEntity lineTopo d e v ↔
    (d = 0 ∧ e = 0 ∧ v = [0]) ∨ (d = 0 ∧ e = 1 ∧ v = [1]) ∨ (d = 1 ∧ e = 0 ∧ v = [0, 1]) := by
  constructor
  · rintro ⟨es, h1, h2⟩
    simp only [lineTopo, Dict.get?] at h1
    split_ifs at h1 with c1 c2
    · obtain rfl := Option.some.inj h1
      simp only [Dict.get?] at h2
      split_ifs at h2 with c3 c4
      · exact Or.inl ⟨c1.symm, c3.symm, (Option.some.inj h2).symm⟩
      · exact Or.inr (Or.inl ⟨c1.symm, c4.symm, (Option.some.inj h2).symm⟩)
    · obtain rfl := Option.some.inj h1
      simp only [Dict.get?] at h2
      split_ifs at h2 with c3
      exact Or.inr (Or.inr ⟨c2.symm, c3.symm, (Option.some.inj h2).symm⟩)
  · rintro (⟨rfl, rfl, rfl⟩ | ⟨rfl, rfl, rfl⟩ | ⟨rfl, rfl, rfl⟩) <;> exact ⟨_, rfl, rfl⟩

private theorem legendre_ids_all (k : ℕ) : AllOnCell lineTopo 1 (gaussLegendreIds k) (k + 1) := by
  have hat : ∀ d e, EntityIds.at? (gaussLegendreIds k) d e = if d = 0 then (if e = 0 then some [] else if e = 1 then some [] else none)
      else if d = 1 then (if e = 0 then some (List.range (k + 1)) else none) else none := by
    intro d e
    rcases d with _ | _ | d <;> rcases e with _ | _ | e <;>
      simp [EntityIds.at?, gaussLegendreIds, Dict.get?, List.range_eq_range']
  refine ⟨fun d e => ?_, by rw [hat]; simp, fun d e l h hne => ?_⟩
  · rw [hat]
    simp only [at_lineTopo]
    constructor
    · intro h
      split_ifs at h with c1 c2 c3 c4 c5
      · exact ⟨_, Or.inl ⟨c1, c2, rfl⟩⟩
      · exact ⟨_, Or.inr (Or.inl ⟨c1, c3, rfl⟩)⟩
      · simp at h
      · exact ⟨_, Or.inr (Or.inr ⟨c4, c5, rfl⟩)⟩
      · simp at h
      · simp at h
    · rintro ⟨v, ⟨rfl, rfl, -⟩ | ⟨rfl, rfl, -⟩ | ⟨rfl, rfl, -⟩⟩ <;> simp
  · rw [hat] at h
    split_ifs at h with c1 c2 c3 c4 c5
    · simpa using h.symm
    · simpa using h.symm
    · exact absurd (by rw [c4, c5]) hne

private theorem lobatto_ids (k : ℕ) (hk : 1 ≤ k) : SameEntities lineTopo (gaussLobattoIds k) ∧ DofsPartition (gaussLobattoIds k) (k + 1) := by
  have hat : ∀ d e, EntityIds.at? (gaussLobattoIds k) d e = if d = 0 then (if e = 0 then some [0] else if e = 1 then some [k] else none)
      else if d = 1 then (if e = 0 then some (List.range' 1 (k - 1)) else none) else none := by
    intro d e
    rcases d with _ | _ | d <;> rcases e with _ | _ | e <;>
      simp [EntityIds.at?, gaussLobattoIds, Dict.get?]
  have hcases : ∀ d e l, EntityIds.at? (gaussLobattoIds k) d e = some l →
      (d = 0 ∧ e = 0 ∧ l = [0]) ∨ (d = 0 ∧ e = 1 ∧ l = [k]) ∨ (d = 1 ∧ e = 0 ∧ l = List.range' 1 (k - 1)) := by
    intro d e l h
    rw [hat] at h
    split_ifs at h with c1 c2 c3 c4 c5
    · exact Or.inl ⟨c1, c2, (Option.some.inj h).symm⟩
    · exact Or.inr (Or.inl ⟨c1, c3, (Option.some.inj h).symm⟩)
    · exact Or.inr (Or.inr ⟨c4, c5, (Option.some.inj h).symm⟩)
  refine ⟨fun d e => ?_, ?_, ?_⟩
  · simp only [at_lineTopo]
    constructor
    · intro h
      obtain ⟨l, hl⟩ := Option.isSome_iff_exists.1 h
      rcases hcases d e l hl with ⟨rfl, rfl, -⟩ | ⟨rfl, rfl, -⟩ | ⟨rfl, rfl, -⟩
      · exact ⟨_, Or.inl ⟨rfl, rfl, rfl⟩⟩
      · exact ⟨_, Or.inr (Or.inl ⟨rfl, rfl, rfl⟩)⟩
      · exact ⟨_, Or.inr (Or.inr ⟨rfl, rfl, rfl⟩)⟩
    · rintro ⟨v, ⟨rfl, rfl, -⟩ | ⟨rfl, rfl, -⟩ | ⟨rfl, rfl, -⟩⟩ <;> rw [hat] <;> simp
  · intro d e l h
    rcases hcases d e l h with ⟨-, -, rfl⟩ | ⟨-, -, rfl⟩ | ⟨-, -, rfl⟩
    · exact ⟨by simp, by simp⟩
    · exact ⟨by simp, by simp⟩
    · exact ⟨List.nodup_range' , fun i hi => by rw [List.mem_range'_1] at hi; omega⟩
  · intro i hi
    have h00 : EntityIds.at? (gaussLobattoIds k) 0 0 = some [0] := by rw [hat]; simp
    have h01 : EntityIds.at? (gaussLobattoIds k) 0 1 = some [k] := by rw [hat]; simp
    have h10 : EntityIds.at? (gaussLobattoIds k) 1 0 = some (List.range' 1 (k - 1)) := by rw [hat]; simp
    have huniq : ∀ q : ℕ × ℕ, (∃ l, EntityIds.at? (gaussLobattoIds k) q.1 q.2 = some l ∧ i ∈ l) →
        q = if i = 0 then (0, 0) else if i = k then (0, 1) else (1, 0) := by
      rintro ⟨d, e⟩ ⟨l, hl, hil⟩
      rcases hcases d e l hl with ⟨rfl, rfl, rfl⟩ | ⟨rfl, rfl, rfl⟩ | ⟨rfl, rfl, rfl⟩
      · rw [List.mem_singleton] at hil; rw [if_pos hil]
      · rw [List.mem_singleton] at hil; rw [if_neg (by omega), if_pos hil]
      · rw [List.mem_range'_1] at hil; rw [if_neg (by omega), if_neg (by omega)]
    refine ⟨if i = 0 then (0, 0) else if i = k then (0, 1) else (1, 0), ?_, fun q hq => huniq q hq⟩
    beta_reduce
    split_ifs with c1 c2
    · exact ⟨_, h00, by simp [c1]⟩
    · exact ⟨_, h01, by simp [c2]⟩
    · exact ⟨_, h10, by rw [List.mem_range'_1]; omega⟩

theorem leggauss_nodup (m : ℕ) (xs ws : List ℝ) (h : IsLeggauss m xs ws) : xs.Nodup := by
  classical
  by_contra hnd
  obtain ⟨h1, h2, h3⟩ := h
  have hcard : xs.toFinset.card < m := by
    rw [← h1]
    refine lt_of_le_of_ne (List.toFinset_card_le xs) fun he => hnd ?_
    exact Multiset.coe_nodup.1 (Multiset.toFinset_card_eq_card_iff_nodup.1 (by simpa using he))
  set p : ℝ[X] := ∏ y ∈ xs.toFinset, (X - C y) with hp
  have hm : p.Monic := monic_prod_of_monic _ _ fun i _ => monic_X_sub_C _
  have hd : p.natDegree = xs.toFinset.card := by
    rw [hp, natDegree_prod_of_monic _ _ fun i _ => monic_X_sub_C _]; simp
  have hi := h3 (p * p) (by
    refine natDegree_mul_le.trans ?_
    omega)
  have hpos : 0 < pint (p * p) := pint_pos _ (mul_ne_zero hm.ne_zero hm.ne_zero) fun x _ => by
    rw [eval_mul]; exact mul_self_nonneg _
  have hz : ((xs.zip ws).map fun xw => xw.2 * (p * p).eval xw.1).sum = 0 := by
    refine List.sum_eq_zero fun t ht => ?_
    obtain ⟨xw, hxw, rfl⟩ := List.mem_map.1 ht
    have hx := (List.of_mem_zip hxw).1
    have : p.eval xw.1 = 0 := by
      rw [hp, eval_prod]
      exact Finset.prod_eq_zero (List.mem_toFinset.2 hx) (by simp)
    rw [eval_mul, this]; ring
  rw [hz] at hi
  exact hpos.ne hi

/-! ### The elements -/

/-- C48, `GaussLobattoLegendre(line, k)` for `k >= 1`: the constructor succeeds; the `k + 1` dofs are split among the entities,
dof 0 is the value at vertex 0 and belongs to it, dof `k` is the value at vertex 1 and belongs to it; the nodes increase; the
element has a nodal basis of `P_k` and `tabulate` returns its derivatives. -/
theorem gauss_lobatto_element (eigh : EighFun) (hE : IsEigh eigh) (s : SimplexCell (Fin 1 → ℝ)) (hs : ProperSimplex ℝ s)
    (ht : s.topo = lineTopo) (hv : 1e-10 < s.v 1 0 - s.v 0 0) (k : ℕ) (hk : 1 ≤ k) :
    ∃ el, gaussLobattoElement eigh s k = some el ∧ el.nodes.length = k + 1 ∧ (el.nodes.Pairwise fun x y => x 0 < y 0) ∧
      SameEntities s.topo el.ids ∧ DofsPartition el.ids (k + 1) ∧
      el.ids.at? 0 0 = some [0] ∧ el.nodes[0]? = some (s.v 0) ∧ el.ids.at? 0 1 = some [k] ∧ el.nodes[k]? = some (s.v 1) ∧
      ∃ ℓ, LineNodal k el.nodes ℓ ∧ BaryTabulates el s ℓ := by
  have hverts := verts_ofFn s hs.2.1 hs.1
  have hn : s.verts.length = 2 := by rw [hverts]; simp
  obtain ⟨Q, h1, -, h2, -, h3, h4, h5⟩ := gll_line eigh hE (fun i : Fin 2 => s.v i) (line_orientation s hv) (k + 1) (by omega)
  rw [← hverts] at h1
  have hnd : Q.pts.Nodup := h3.imp fun {x y} h he => by rw [he] at h; exact lt_irrefl _ h
  obtain ⟨el, e1, e2, e3, -⟩ := line_element s hs hv Q (gaussLobattoIds k) h2 hnd
  have hids := lobatto_ids k hk
  refine ⟨el, by rw [gaussLobattoElement, h1]; exact e1, by rw [e2, h2], by rw [e2]; exact h3, ?_, ?_, ?_, ?_, ?_, ?_, ?_⟩
  · rw [ht, e3]; exact hids.1
  · rw [e3]; exact hids.2
  · rw [e3]; rfl
  · rw [e2, ← List.head?_eq_getElem?, h4]; rfl
  · rw [e3]; rfl
  · rw [e2, show k = Q.pts.length - 1 by omega, ← List.getLast?_eq_getElem?, h5]; rfl
  · exact bary_tabulates el s ht hn (by rw [e2, h2]) (by rw [e2]; exact hnd)

/-- C48: there is no Gauss-Lobatto-Legendre element of degree 0. -/
theorem gauss_lobatto_degree_zero (eigh : EighFun) (s : SimplexCell (Fin 1 → ℝ)) : gaussLobattoElement eigh s 0 = none := rfl

/-- C48, `GaussLegendre(line, k)`: the constructor succeeds, all `k + 1` dofs belong to the cell, the element has a nodal basis
of `P_k` and `tabulate` returns its derivatives. -/
theorem gauss_legendre_element (s : SimplexCell (Fin 1 → ℝ)) (hs : ProperSimplex ℝ s) (ht : s.topo = lineTopo)
    (hv : 1e-10 < s.v 1 0 - s.v 0 0) (k : ℕ) (xs ws : List ℝ) (hx : IsLeggauss (k + 1) xs ws) :
    ∃ el, gaussLegendreElement s k xs ws = some el ∧ el.nodes.length = k + 1 ∧ el.nodes.Nodup ∧
      AllOnCell s.topo 1 el.ids (k + 1) ∧ ∃ ℓ, LineNodal k el.nodes ℓ ∧ BaryTabulates el s ℓ := by
  have hverts := verts_ofFn s hs.2.1 hs.1
  have hn : s.verts.length = 2 := by rw [hverts]; simp
  obtain ⟨A, b, Q, r1, -, r3, -⟩ := mapped_rule_spec (fun i : Fin 2 => s.v i) (xs.map fun x (_ : Fin 1) => x) ws (by simp [hx.1, hx.2.1])
  obtain ⟨hnd, -⟩ := mapped_nodup _ (line_orientation s hv) xs ws (by rw [hx.1, hx.2.1]) (leggauss_nodup _ xs ws hx) Q r1
  have hlen : Q.pts.length = k + 1 := by rw [r3, List.length_map, List.length_map, hx.1]
  obtain ⟨el, e1, e2, e3, -⟩ := line_element s hs hv Q (gaussLegendreIds k) hlen hnd
  refine ⟨el, ?_, by rw [e2, hlen], by rw [e2]; exact hnd, by rw [ht, e3]; exact legendre_ids_all k,
    bary_tabulates el s ht hn (by rw [e2, hlen]) (by rw [e2]; exact hnd)⟩
  rw [gaussLegendreElement, gaussLegendreLineRule, if_neg (by omega), hverts]
  rw [show (List.ofFn fun i : Fin (1 + 1) => s.v (i : ℕ)) = List.ofFn fun i : Fin 2 => s.v (i : ℕ) from rfl, r1]
  exact e1

/-- C48, `GaussRadau(line, k)`: the constructor succeeds, all `k + 1` dofs belong to the cell although the last node is vertex
1, and the inherited `tabulate` returns all derivatives of the nodal basis of `P_k`. -/
theorem gauss_radau_element (s : SimplexCell (Fin 1 → ℝ)) (hs : ProperSimplex ℝ s) (ht : s.topo = lineTopo)
    (hv : 1e-10 < s.v 1 0 - s.v 0 0) (k : ℕ) (xs : List ℝ) (hx : RadauNodes (k + 1) xs) :
    ∃ el, gaussRadauElement s k xs = some el ∧ el.nodes.length = k + 1 ∧ el.nodes.Nodup ∧ el.nodes[k]? = some (s.v 1) ∧
      AllOnCell s.topo 1 el.ids (k + 1) ∧
      ∃ φ : Fin ((k + 1).choose 1) → MvPolynomial (Fin 1) ℝ, (∀ j, (φ j).totalDegree ≤ k) ∧
      (∀ (i : ℕ) x, el.nodes[i]? = some x → ∀ j, MvPolynomial.eval x (φ j) = if i = (j : ℕ) then 1 else 0) ∧
      ∀ (pts : List (Fin 1 → ℝ)) (order : ℕ), ∃ res, el.polySet.tabulate pts order = some res ∧
        (∀ α, α ∈ Dict.keys res ↔ α.length = 1 ∧ α.sum ≤ order) ∧
        ∀ α T, Dict.get? res α = some T → ∀ i c (j : ℕ) x, pts[j]? = some x → T i c j = MvPolynomial.eval x (iterDeriv α (φ i)) := by
  have hverts := verts_ofFn s hs.2.1 hs.1
  obtain ⟨p1, p2, p3, -, -, p6⟩ := radau_points (k + 1) (by omega) true xs hx
  obtain ⟨A, b, Q, r1, -, r3, -⟩ := mapped_rule_spec (fun i : Fin 2 => s.v i) ((radauRef (k + 1) true xs).1.map fun x (_ : Fin 1) => x)
    (radauRef (k + 1) true xs).2 (by simp [p1, p2])
  obtain ⟨hnd, -, hlast⟩ := mapped_nodup _ (line_orientation s hv) _ _ (by rw [p1, p2]) p3 Q r1
  have hlen : Q.pts.length = k + 1 := by rw [r3, List.length_map, List.length_map, p1]
  obtain ⟨el, e1, e2, e3, φ, e4, e5, e6⟩ := line_element s hs hv Q (gaussLegendreIds k) hlen hnd
  refine ⟨el, ?_, by rw [e2, hlen], by rw [e2]; exact hnd, ?_, by rw [ht, e3]; exact legendre_ids_all k, φ, e4, by rw [e2]; exact e5, e6⟩
  · rw [gaussRadauElement, radauLineRule, if_pos (by omega), hverts]
    rw [show (List.ofFn fun i : Fin (1 + 1) => s.v (i : ℕ)) = List.ofFn fun i : Fin 2 => s.v (i : ℕ) from rfl, r1]
    exact e1
  · rw [if_pos rfl, List.getLast?_eq_getElem?, p1, Nat.add_sub_cancel] at p6
    rw [e2]
    exact hlast k p6

/-! ### Non-vacuity -/

/-- The Golub-Welsch rule meets the contract of `leggauss`. -/
theorem leggauss_exists (m : ℕ) (hm : 1 ≤ m) : ∃ xs ws, IsLeggauss m xs ws := by
  obtain ⟨eigh, hE⟩ := eigh_exists
  obtain ⟨xs, ws, -, h2, h3, -, -, -, h7⟩ := gauss_jacobi_rec eigh hE 0 0 (m - 1)
  refine ⟨xs, ws, by omega, by omega, fun q hq => ?_⟩
  have := h7 q (by omega)
  rw [ruleSum] at this
  rw [this]
  simp

example : ∃ eigh, IsEigh eigh ∧ ∃ el, gaussLobattoElement eigh ((ufcInterval : CellData ℝ).toSimplex 1) 4 = some el := by
  obtain ⟨eigh, hE⟩ := eigh_exists
  obtain ⟨el, h, -⟩ := gauss_lobatto_element eigh hE _ (proper_ufcInterval (K := ℝ)) rfl
    (by norm_num [SimplexCell.v, CellData.toSimplex, ufcInterval]) 4 (by norm_num)
  exact ⟨eigh, hE, el, h⟩

example : ∃ xs ws el, IsLeggauss 3 xs ws ∧ gaussLegendreElement ((defaultLine : CellData ℝ).toSimplex 1) 2 xs ws = some el := by
  obtain ⟨xs, ws, hx⟩ := leggauss_exists 3 (by norm_num)
  obtain ⟨el, h, -⟩ := gauss_legendre_element _ (proper_defaultLine (K := ℝ)) rfl
    (by norm_num [SimplexCell.v, CellData.toSimplex, defaultLine]) 2 xs ws hx
  exact ⟨xs, ws, el, hx, h⟩

end FIAT
