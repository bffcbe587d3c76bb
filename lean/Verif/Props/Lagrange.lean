/-
C20 (unisolvence of the Lagrange nodes) and C21 (entity association, C0 continuity), C22.
-/
import Verif.Lemmas.Lattice
import Verif.Lemmas.MvPoly
import Mathlib.Algebra.MvPolynomial.Funext
import Mathlib.LinearAlgebra.FiniteDimensional.Lemmas
import Mathlib.LinearAlgebra.AffineSpace.FiniteDimensional
import Mathlib.Tactic.LinearCombination

namespace FIAT

/-- Specification: the topology of a full simplex.  Entity tuples list `d + 1` distinct vertices, every
nonempty set of vertices is exactly one entity, vertex entity `e` is vertex `e`. -/
structure FullSimplex {V : Type} (s : SimplexCell V) : Prop where
  wf : s.topo.WF
  nverts : s.verts.length = s.sd + 1
  entity : ∀ d e t, HasEntity s.topo d e t → t.Nodup ∧ t.length = d + 1 ∧ ∀ x ∈ t, x < s.sd + 1
  vertex : ∀ e t, HasEntity s.topo 0 e t → t = [e]
  all : ∀ S : Finset ℕ, S.Nonempty → S ⊆ Finset.range (s.sd + 1) →
    ∃ d e t, HasEntity s.topo d e t ∧ t.toFinset = S
  unique : ∀ d e t d' e' t', HasEntity s.topo d e t → HasEntity s.topo d' e' t' →
    t.toFinset = t'.toFinset → d = d' ∧ e = e'

/-- Vertex number `i` (`0` if there is none). -/
def SimplexCell.v {V : Type} [Zero V] (s : SimplexCell V) (i : ℕ) : V := (s.verts[i]?).getD 0

/-- Specification: the simplex is nondegenerate. -/
def Nondegenerate (K : Type*) {V : Type} [Field K] [AddCommGroup V] [Module K V]
    (s : SimplexCell V) : Prop :=
  AffineIndependent K (fun i : Fin (s.sd + 1) => s.v i)

section nodes
variable {K : Type*} {V : Type} [Field K] [LinearOrder K] [IsStrictOrderedRing K] [AddCommGroup V] [Module K V]

private theorem verts_eq (s : SimplexCell V) (n : ℕ) (h : s.verts.length = n) :
    s.verts = (List.range n).map s.v := by
  apply List.ext_getElem?
  intro i
  rw [List.getElem?_map]
  by_cases hi : i < n
  · rw [List.getElem?_range hi, Option.map_some, SimplexCell.v,
      List.getElem?_eq_getElem (by omega)]
    rfl
  · rw [List.getElem?_eq_none (by omega), List.getElem?_eq_none (by simpa using hi)]; rfl

private theorem verticesOf_eq (s : SimplexCell V) (t : List ℕ) (h : ∀ x ∈ t, x < s.verts.length) :
    verticesOf s t = some (t.map s.v) := by
  unfold verticesOf
  induction t with
  | nil => rfl
  | cons a t ih =>
    rw [List.mapM_cons, ih fun x hx => h x (List.mem_cons_of_mem _ hx),
      List.getElem?_eq_getElem (h a (by simp))]
    simp only [Option.bind_eq_bind, Option.bind_some, List.map_cons, SimplexCell.v]
    rw [List.getElem?_eq_getElem (h a (by simp))]; rfl

private theorem affineIndependent_sub (s : SimplexCell V) (hind : Nondegenerate K s) (t : List ℕ)
    (ht : t.Nodup) (hN : ∀ x ∈ t, x < s.sd + 1) :
    AffineIndependent K (fun i : Fin (t.map s.v).length => (t.map s.v).get i) := by
  have h := hind.comp_embedding
    (⟨fun i : Fin (t.map s.v).length => ⟨t[i]'(by simpa using i.2), hN _ (List.getElem_mem _)⟩, by
      intro i j hij
      simp only [Fin.mk.injEq] at hij
      exact Fin.ext ((List.Nodup.getElem_inj_iff ht).1 hij)⟩ :
        Fin (t.map s.v).length ↪ Fin (s.sd + 1))
  have e : (fun i : Fin (t.map s.v).length => (t.map s.v).get i) =
      (fun i : Fin (s.sd + 1) => s.v i) ∘ (⟨fun i : Fin (t.map s.v).length =>
        ⟨t[i]'(by simpa using i.2), hN _ (List.getElem_mem _)⟩, by
      intro i j hij
      simp only [Fin.mk.injEq] at hij
      exact Fin.ext ((List.Nodup.getElem_inj_iff ht).1 hij)⟩ :
        Fin (t.map s.v).length ↪ Fin (s.sd + 1)) := by
    funext i; simp
  rw [e]; exact h

/-- Points of `make_points` on an entity: integer barycentric coordinates nonzero exactly on the vertices
of the entity. -/
theorem make_points_mem (s : SimplexCell V) (hs : FullSimplex s) (k : ℕ) (hk : 1 ≤ k) {d e : ℕ} {t : List ℕ}
    (h : HasEntity s.topo d e t) :
    ∃ pts, makePoints K s d e k = some pts ∧
      ∀ p, p ∈ pts ↔ ∃ β : ℕ → ℕ, (∀ i, β i ≠ 0 ↔ i ∈ t) ∧
        ∑ i ∈ Finset.range (s.sd + 1), β i = k ∧ p = baryPt K s.v (s.sd + 1) k β := by
  have hk0 : (k : K) ≠ 0 := by positivity
  obtain ⟨hnd, hlen, hlt⟩ := hs.entity d e t h
  -- the lattice on a vertex list `u` with the same elements as `t`
  have main : ∀ u : List ℕ, u.Nodup → 2 ≤ u.length → (∀ x, x ∈ u ↔ x ∈ t) →
      ∃ pts, makeLatticeL K (u.map s.v) k 1 = some pts ∧
      ∀ p, p ∈ pts ↔ ∃ β : ℕ → ℕ, (∀ i, β i ≠ 0 ↔ i ∈ t) ∧
        ∑ i ∈ Finset.range (s.sd + 1), β i = k ∧ p = baryPt K s.v (s.sd + 1) k β := by
    intro u hu h2 hut
    match u, h2 with
    | t0 :: ts, h2 =>
      have hts : ts ≠ [] := by rintro rfl; simp at h2
      refine ⟨makeLattice K (s.v t0) (ts.map s.v) k 1, rfl, fun p => ?_⟩
      rw [mem_makeLattice s.v (s.sd + 1) k 1 t0 ts hk hts hu
        (fun i hi => hlt i ((hut i).1 hi)) p]
      constructor
      · rintro ⟨β, h0, h1, h2, h3⟩
        refine ⟨β, fun i => ⟨fun hi => ?_, fun hi => ?_⟩, h2, h3⟩
        · by_contra hc; exact hi (h0 i fun hm => hc ((hut i).1 hm))
        · have := h1 i ((hut i).2 hi); omega
      · rintro ⟨β, h0, h2, h3⟩
        refine ⟨β, fun i hi => ?_, fun i hi => ?_, h2, h3⟩
        · by_contra hc; exact hi ((hut i).2 ((h0 i).1 hc))
        · have := (h0 i).2 ((hut i).1 hi); omega
  unfold makePoints
  by_cases hd : d = 0
  · subst hd
    have ht := hs.vertex e t h
    subst ht
    have he : e < s.verts.length := by rw [hs.nverts]; exact hlt e (by simp)
    refine ⟨[s.v e], ?_, fun p => ?_⟩
    · rw [if_pos rfl, List.getElem?_eq_getElem he, Option.map_some, SimplexCell.v,
        List.getElem?_eq_getElem he]; rfl
    · rw [List.mem_singleton]
      have hbary : ∀ β : ℕ → ℕ, (∀ i, β i ≠ 0 ↔ i ∈ [e]) → ∑ i ∈ Finset.range (s.sd + 1), β i = k →
          baryPt K s.v (s.sd + 1) k β = s.v e := by
        intro β h0 hsum
        have hz : ∀ i ∉ [e], β i = 0 := fun i hi => by
          by_contra hc; exact hi ((h0 i).1 hc)
        rw [sum_range_eq_list [e] (by simp) (s.sd + 1) hlt β hz] at hsum
        rw [baryPt, sum_range_eq_list [e] (by simp) (s.sd + 1) hlt _ (fun i hi => by simp [hz i hi])]
        simp only [List.map_cons, List.map_nil, List.sum_cons, List.sum_nil, add_zero] at hsum ⊢
        rw [hsum, div_self hk0, one_smul]
      constructor
      · rintro rfl
        refine ⟨fun i => if i = e then k else 0, fun i => ?_, ?_, ?_⟩
        · by_cases hi : i = e
          · simp [hi]; omega
          · simp [hi]
        · rw [Finset.sum_ite_eq', if_pos (Finset.mem_range.2 (hlt e (by simp)))]
        · symm
          apply hbary
          · intro i
            by_cases hi : i = e
            · simp [hi]; omega
            · simp [hi]
          · rw [Finset.sum_ite_eq', if_pos (Finset.mem_range.2 (hlt e (by simp)))]
      · rintro ⟨β, h0, hsum, rfl⟩
        exact hbary β h0 hsum
  · rw [if_neg hd]
    have hle : d + 1 ≤ s.sd + 1 := by
      rw [← hlen, ← List.toFinset_card_of_nodup hnd, ← Finset.card_range (s.sd + 1)]
      apply Finset.card_le_card
      intro x hx
      exact Finset.mem_range.2 (hlt x (List.mem_toFinset.1 hx))
    by_cases hd2 : d < s.sd
    · obtain ⟨es, h1, h2⟩ := id h
      rw [if_pos hd2, h1]
      simp only [Option.bind_eq_bind, Option.bind_some]
      rw [h2]
      simp only [Option.bind_some]
      rw [verticesOf_eq s t (fun x hx => by rw [hs.nverts]; exact hlt x hx)]
      simp only [Option.bind_some]
      exact main t hnd (by omega) fun _ => Iff.rfl
    · have hd3 : d = s.sd := by omega
      rw [if_neg hd2, if_pos hd3, verts_eq s _ hs.nverts]
      refine main (List.range (s.sd + 1)) List.nodup_range (by rw [List.length_range]; omega) fun x => ?_
      have hset : t.toFinset = Finset.range (s.sd + 1) := by
        apply Finset.eq_of_subset_of_card_le
        · intro x hx; exact Finset.mem_range.2 (hlt x (List.mem_toFinset.1 hx))
        · rw [List.toFinset_card_of_nodup hnd, Finset.card_range]; omega
      rw [List.mem_range, ← Finset.mem_range, ← hset, List.mem_toFinset]

/-- The points of one entity are distinct. -/
theorem make_points_nodup (s : SimplexCell V) (hs : FullSimplex s) (hind : Nondegenerate K s) (k : ℕ)
    (hk : 1 ≤ k) {d e : ℕ} {t : List ℕ} (h : HasEntity s.topo d e t) {pts : List V}
    (hp : makePoints K s d e k = some pts) : pts.Nodup := by
  obtain ⟨hnd, hlen, hlt⟩ := hs.entity d e t h
  have main : ∀ u : List ℕ, u.Nodup → (∀ x ∈ u, x < s.sd + 1) → ∀ pts,
      makeLatticeL K (u.map s.v) k 1 = some pts → pts.Nodup := by
    intro u hu hlt pts hp
    match u with
    | [] => simp [makeLatticeL] at hp
    | t0 :: ts =>
      simp only [List.map_cons, makeLatticeL, Option.some.injEq] at hp
      rw [← hp]
      exact make_lattice_nodup _ _ k 1 hk (affineIndependent_sub s hind _ hu hlt)
  unfold makePoints at hp
  split_ifs at hp with h1 h2 h3
  · rw [Option.map_eq_some_iff] at hp
    obtain ⟨v, _, rfl⟩ := hp
    simp
  · obtain ⟨es, g1, g2⟩ := id h
    rw [g1] at hp
    simp only [Option.bind_eq_bind, Option.bind_some] at hp
    rw [g2] at hp
    simp only [Option.bind_some] at hp
    rw [verticesOf_eq s t (fun x hx => by rw [hs.nverts]; exact hlt x hx)] at hp
    simp only [Option.bind_some] at hp
    exact main t hnd hlt pts hp
  · rw [verts_eq s _ hs.nverts] at hp
    exact main _ List.nodup_range (by simp) pts hp

/-- C20/C21: the dual set exists, and its nodes are the principal lattice of order `k` of the simplex
(every point once). -/
theorem lagrange_nodes_perm (s : SimplexCell V) (hs : FullSimplex s) (hind : Nondegenerate K s) (k : ℕ)
    (hk : 1 ≤ k) (hd : 1 ≤ s.sd) :
    ∃ nodes ids, lagrangeDual K s k = some (nodes, ids) ∧
      ∃ L, makeLatticeL K s.verts k 0 = some L ∧ nodes.Perm L := by
  choose! P hP1 hP2 using fun (d e : ℕ) (t : List ℕ) (h : HasEntity s.topo d e t) =>
    make_points_mem (K := K) s hs k hk h
  have hP' : ∀ d e v, HasEntity s.topo d e v →
      makePoints K s d e k = some (((makePoints K s d e k)).getD []) := by
    intro d e v h
    rw [hP1 d e v h]; rfl
  obtain ⟨nodes, ids, hnum, hnodes, _⟩ := number_entities_spec s.topo hs.wf
    (fun d e => makePoints K s d e k) (fun x => (makePoints K s x.1 x.2 k).getD []) hP'
  refine ⟨nodes, ids, by simp [lagrangeDual, hnum], ?_⟩
  have hv : s.verts = s.v 0 :: ((List.range' 1 s.sd).map s.v) := by
    rw [verts_eq s _ hs.nverts, List.range_succ_eq_map, List.map_cons, List.map_map,
      List.range'_eq_map_range, List.map_map]
    congr 2
    funext i; simp [Function.comp, Nat.add_comm]
  have hu : (0 :: List.range' 1 s.sd).Nodup := by
    have : 0 :: List.range' 1 s.sd = List.range (s.sd + 1) := by
      rw [List.range_eq_range', List.range'_succ]
    rw [this]; exact List.nodup_range
  have hul : ∀ i ∈ 0 :: List.range' 1 s.sd, i < s.sd + 1 := by
    intro i hi
    rcases List.mem_cons.1 hi with rfl | hi
    · omega
    · rw [List.mem_range'_1] at hi; omega
  refine ⟨makeLattice K (s.v 0) ((List.range' 1 s.sd).map s.v) k 0, by rw [hv]; rfl, ?_⟩
  rw [List.perm_ext_iff_of_nodup]
  · -- same elements
    intro p
    rw [hnodes, mem_makeLattice s.v (s.sd + 1) k 0 0 (List.range' 1 s.sd) hk
      (by intro h; have := congrArg List.length h; simp at this; omega) hu hul p]
    simp only [List.mem_flatMap, Prod.exists]
    constructor
    · rintro ⟨d, e, hde, hp⟩
      obtain ⟨t, ht⟩ := (mem_loopOrder hs.wf d e).1 hde
      rw [hP1 d e t ht, Option.getD_some, hP2 d e t ht] at hp
      obtain ⟨β, h0, h1, h2⟩ := hp
      refine ⟨β, fun i hi => ?_, fun _ _ => Nat.zero_le _, h1, h2⟩
      by_contra hc
      apply hi
      have := (hs.entity d e t ht).2.2 i ((h0 i).1 hc)
      rw [List.mem_cons, List.mem_range'_1]; omega
    · rintro ⟨β, h0, _, h1, h2⟩
      have hlt : ∀ i, β i ≠ 0 → i < s.sd + 1 := by
        intro i hi
        by_contra hc
        exact hi (h0 i fun hm => hc (hul i hm))
      obtain ⟨d, e, t, ht, hS⟩ := hs.all ((Finset.range (s.sd + 1)).filter fun i => β i ≠ 0) (by
          by_contra hc
          rw [Finset.not_nonempty_iff_eq_empty, Finset.filter_eq_empty_iff] at hc
          rw [Finset.sum_eq_zero (fun i hi => by simpa using hc hi)] at h1
          omega) (Finset.filter_subset _ _)
      refine ⟨d, e, (mem_loopOrder hs.wf d e).2 ⟨t, ht⟩, ?_⟩
      rw [hP1 d e t ht, Option.getD_some, hP2 d e t ht]
      refine ⟨β, fun i => ?_, h1, h2⟩
      rw [← List.mem_toFinset, hS, Finset.mem_filter, Finset.mem_range]
      exact ⟨fun h => ⟨hlt i h, h⟩, fun h => h.2⟩
  · -- nodes are distinct
    rw [hnodes, List.nodup_flatMap]
    constructor
    · rintro ⟨d, e⟩ hde
      obtain ⟨t, ht⟩ := (mem_loopOrder hs.wf d e).1 hde
      rw [hP1 d e t ht]
      exact make_points_nodup s hs hind k hk ht (hP1 d e t ht)
    · refine List.Pairwise.imp_of_mem ?_ (loopOrder_nodup hs.wf)
      rintro ⟨d, e⟩ ⟨d', e'⟩ hde hde' hne p hp hp'
      obtain ⟨t, ht⟩ := (mem_loopOrder hs.wf d e).1 hde
      obtain ⟨t', ht'⟩ := (mem_loopOrder hs.wf d' e').1 hde'
      simp only at hp hp'
      rw [hP1 d e t ht, Option.getD_some, hP2 d e t ht] at hp
      rw [hP1 d' e' t' ht', Option.getD_some, hP2 d' e' t' ht'] at hp'
      obtain ⟨β, h0, h1, h2⟩ := hp
      obtain ⟨γ, h0', h1', h2'⟩ := hp'
      have hinj := baryPt_injective (K := K) s.v (s.sd + 1) k hk hind β γ h1 h1' (h2.symm.trans h2')
      apply hne
      have := hs.unique d e t d' e' t' ht ht' (by
        ext i
        rw [List.mem_toFinset, List.mem_toFinset, ← h0, ← h0']
        by_cases hi : i < s.sd + 1
        · rw [hinj i hi]
        · constructor
          · intro h; exact absurd ((hs.entity d e t ht).2.2 i ((h0 i).1 h)) hi
          · intro h; exact absurd ((hs.entity d' e' t' ht').2.2 i ((h0' i).1 h)) hi)
      rw [this.1, this.2]
  · have := affineIndependent_sub s hind (0 :: List.range' 1 s.sd) hu hul
    exact make_lattice_nodup _ _ k 0 hk this

/-- C20: the number of nodes. -/
theorem lagrange_num_nodes (s : SimplexCell V) (hs : FullSimplex s) (hind : Nondegenerate K s) (k : ℕ)
    (hk : 1 ≤ k) (hd : 1 ≤ s.sd) :
    ∃ nodes ids, lagrangeDual K s k = some (nodes, ids) ∧ nodes.length = (k + s.sd).choose s.sd := by
  obtain ⟨nodes, ids, h, L, hL, hp⟩ := lagrange_nodes_perm (K := K) s hs hind k hk hd
  refine ⟨nodes, ids, h, ?_⟩
  rw [hp.length_eq]
  have hlen := hs.nverts
  match hv : s.verts, hlen with
  | v0 :: vs, hlen =>
    have hvs : vs.length = s.sd := by simpa using hlen
    rw [hv, makeLatticeL, Option.some.injEq] at hL
    rw [← hL, makeLattice, List.length_map, List.length_map, lattice_indices_length _ _ _ (by omega)]
    simp [hvs]

end nodes

section unisolvence
open MvPolynomial
variable {K : Type} [Field K] [LinearOrder K] [IsStrictOrderedRing K] {D m : ℕ}

/-- The polynomial `p` composed with the affine map `y ↦ w0 + Σ y i • (w i - w0)`. -/
noncomputable def pullback (w0 : Fin D → K) (w : Fin m → Fin D → K) (p : MvPolynomial (Fin D) K) :
    MvPolynomial (Fin m) K :=
  aeval (fun j => C (w0 j) + ∑ i, C (w i j - w0 j) * X i) p

omit [LinearOrder K] [IsStrictOrderedRing K] in
theorem eval_pullback (w0 : Fin D → K) (w : Fin m → Fin D → K) (p : MvPolynomial (Fin D) K)
    (y : Fin m → K) : eval y (pullback w0 w p) = eval (w0 + ∑ i, y i • (w i - w0)) p := by
  unfold pullback
  have : (eval y).comp (aeval (fun j => C (w0 j) + ∑ i, C (w i j - w0 j) * X i) :
      MvPolynomial (Fin D) K →ₐ[K] MvPolynomial (Fin m) K).toRingHom =
      eval (w0 + ∑ i, y i • (w i - w0)) := by
    apply MvPolynomial.ringHom_ext
    · intro r; simp
    · intro i
      simp [Finset.sum_apply, mul_comm]
  exact congrArg (fun f => f p) this

omit [LinearOrder K] [IsStrictOrderedRing K] in
theorem totalDegree_pullback (w0 : Fin D → K) (w : Fin m → Fin D → K) (p : MvPolynomial (Fin D) K) :
    (pullback w0 w p).totalDegree ≤ p.totalDegree := by
  refine totalDegree_aeval_le _ (fun j => ?_) p
  refine (totalDegree_add _ _).trans (max_le (by simp) ?_)
  refine (totalDegree_finsetSum _ _).trans (Finset.sup_le fun i _ => ?_)
  refine (totalDegree_mul _ _).trans ?_
  rw [totalDegree_C]; simp

/-- A polynomial of degree at most `k` that vanishes at the points of the lattice of order
`k + (m + 1) c` with interior offset `c` of a simplex with `m + 1` vertices vanishes on the affine hull
of the vertices. -/
theorem lattice_vanish (w0 : Fin D → K) (ws : List (Fin D → K)) (hws : ws ≠ []) (n c k : ℕ) (hn1 : 1 ≤ n)
    (hn : n = k + (ws.length + 1) * c) (p : MvPolynomial (Fin D) K) (hp : p.totalDegree ≤ k)
    (h : ∀ x ∈ makeLattice K w0 ws n c, eval x p = 0) (y : Fin ws.length → K) :
    eval (w0 + ∑ i, y i • (ws.get i - w0)) p = 0 := by
  have hn0 : (n : K) ≠ 0 := by positivity
  rw [← eval_pullback]
  suffices hz : pullback w0 ws.get p = 0 by rw [hz, map_zero]
  refine lattice_unisolvent _ k (fun _ α => ((α + c : ℕ) : K) / n) (fun _ a b hab => ?_) _
    ((totalDegree_pullback _ _ _).trans hp) fun α hα => ?_
  · simp only at hab
    rw [div_left_inj' hn0] at hab
    have := Nat.cast_injective (R := K) hab
    omega
  · rw [eval_pullback]
    apply h
    simp only [makeLattice, List.length_map, List.mem_map]
    refine ⟨List.ofFn fun i => α i + c, ?_, ?_⟩
    · rw [lattice_indices_mem _ _ _ (List.length_pos_iff.2 hws)]
      refine ⟨by simp, ?_, ?_⟩
      · intro x hx
        obtain ⟨i, rfl⟩ := (List.mem_ofFn' _ _).1 hx
        exact Nat.le_add_left _ _
      · rw [List.sum_ofFn, Finset.sum_add_distrib]
        simp only [Finset.sum_const, Finset.card_univ, Fintype.card_fin, smul_eq_mul]
        rw [hn, Nat.add_mul]; omega
    · congr 1
      rw [natCombo_eq_combo, combo_get _ _ (by simp)]
      rw [← (Fin.castOrderIso (by simp : (ws.map fun v => ((n : K)⁻¹) • (v - w0)).length
        = ws.length)).toEquiv.symm.sum_comp]
      refine Finset.sum_congr rfl fun i _ => ?_
      simp [List.get_eq_getElem, smul_smul, div_eq_mul_inv]

/-- Every point is an affine combination of the vertices of a nondegenerate simplex. -/
private theorem exists_coords (w0 : Fin D → K) (w : Fin D → Fin D → K)
    (hlin : LinearIndependent K fun i => w i - w0) (x : Fin D → K) :
    ∃ y : Fin D → K, x = w0 + ∑ i, y i • (w i - w0) := by
  have hspan := hlin.span_eq_top_of_card_eq_finrank' (by simp)
  have hx : x - w0 ∈ Submodule.span K (Set.range fun i => w i - w0) := by rw [hspan]; trivial
  obtain ⟨y, hy⟩ := (Submodule.mem_span_range_iff_exists_fun K).1 hx
  exact ⟨y, by rw [hy]; abel⟩

private theorem lattice_unisolvent_simplex (s : SimplexCell (Fin D → K)) (hsd : s.sd = D)
    (hs : FullSimplex s)
    (hind : Nondegenerate K s) (hd : 1 ≤ D) (n c k : ℕ) (hn1 : 1 ≤ n) (hn : n = k + (D + 1) * c)
    (L : List (Fin D → K)) (hL : makeLatticeL K s.verts n c = some L)
    (p : MvPolynomial (Fin D) K) (hp : p.totalDegree ≤ k) (h : ∀ x ∈ L, eval x p = 0) : p = 0 := by
  have hind' : AffineIndependent K (fun i : Fin (D + 1) => s.v i) := by
    unfold Nondegenerate at hind; rw [hsd] at hind; exact hind
  have hlen := hs.nverts
  match hv : s.verts, hlen with
  | v0 :: vs, hlen =>
    have hvs : vs.length = D := by simp at hlen; omega
    rw [hv, makeLatticeL, Option.some.injEq] at hL
    apply MvPolynomial.funext
    intro x
    rw [map_zero]
    have hget : ∀ i : Fin D, s.v (i + 1) = vs.get (i.cast hvs.symm) := by
      intro i
      have : s.verts[(i : ℕ) + 1]? = some (vs.get (i.cast hvs.symm)) := by
        rw [hv, List.getElem?_cons_succ, List.getElem?_eq_getElem (by omega)]; rfl
      rw [SimplexCell.v, this]; rfl
    have h0 : s.v 0 = v0 := by rw [SimplexCell.v, hv]; rfl
    have hlin : LinearIndependent K (fun i : Fin D => vs.get (i.cast hvs.symm) - v0) := by
      have h := (affineIndependent_iff_linearIndependent_vsub K _ 0).1 hind'
      have h2 := h.comp (fun i : Fin D => (⟨i.succ, Fin.succ_ne_zero i⟩ : {x : Fin (D+1) // x ≠ 0}))
        (by intro p q hpq; simpa using hpq)
      have e : (fun i : Fin D => vs.get (i.cast hvs.symm) - v0) =
          (fun i : {x : Fin (D+1) // x ≠ 0} => s.v i.1 -ᵥ s.v ((0 : Fin (D + 1)) : ℕ)) ∘
          (fun i : Fin D => (⟨i.succ, Fin.succ_ne_zero i⟩ : {x : Fin (D+1) // x ≠ 0})) := by
        funext i
        simp only [Function.comp, Fin.val_succ, hget, Fin.val_zero, h0]
        rfl
      rw [e]; exact h2
    obtain ⟨y, rfl⟩ := exists_coords v0 _ hlin x
    have := lattice_vanish v0 vs (by intro h; rw [h] at hvs; simp at hvs; omega) n c k hn1
      (by rw [hvs]; exact hn) p hp (by rw [hL]; exact h) (fun i => y (i.cast hvs))
    rw [← this]
    congr 2
    rw [← (Fin.castOrderIso hvs).toEquiv.sum_comp]
    rfl

/-- C20: a polynomial of degree at most `k` that vanishes at all nodes of `Lagrange(cell, k)` is zero, for
every nondegenerate simplex of any dimension `≥ 1`. -/
theorem lagrange_unisolvent (s : SimplexCell (Fin D → K)) (hsd : s.sd = D) (hs : FullSimplex s)
    (hind : Nondegenerate K s) (hd : 1 ≤ D) (k : ℕ) (hk : 1 ≤ k)
    (nodes : List (Fin D → K)) (ids : EntityIds ℕ) (hdual : lagrangeDual K s k = some (nodes, ids))
    (p : MvPolynomial (Fin D) K) (hp : p.totalDegree ≤ k) (h : ∀ x ∈ nodes, eval x p = 0) : p = 0 := by
  obtain ⟨nodes', ids', h1, L, hL, hperm⟩ := lagrange_nodes_perm (K := K) s hs hind k hk (by omega)
  rw [hdual, Option.some.injEq, Prod.mk.injEq] at h1
  refine lattice_unisolvent_simplex s hsd hs hind hd k 0 k hk (by omega) L hL p hp fun x hx => ?_
  exact h x (by rw [h1.1]; exact hperm.mem_iff.2 hx)

/-- C20: the points at which the derivative matrices are computed
(`make_points(sd, 0, degree + sd + 1)`, polynomial_set.py:163) are `dim P_degree` many, and a polynomial
of degree at most `degree` that vanishes at all of them is zero. -/
theorem dmats_points_unisolvent (s : SimplexCell (Fin D → K)) (hsd : s.sd = D) (hs : FullSimplex s)
    (hind : Nondegenerate K s) (hd : 1 ≤ D) (k : ℕ) :
    ∃ pts, makePoints K s D 0 (k + D + 1) = some pts ∧ pts.length = (k + D).choose D ∧
      ∀ p : MvPolynomial (Fin D) K, p.totalDegree ≤ k → (∀ x ∈ pts, eval x p = 0) → p = 0 := by
  have hlen := hs.nverts
  have hne : s.verts ≠ [] := by intro h; rw [h] at hlen; simp at hlen
  obtain ⟨v0, vs, hv⟩ := List.exists_cons_of_ne_nil hne
  have hvs : vs.length = D := by rw [hv] at hlen; simp at hlen; omega
  have hmp : makePoints K s D 0 (k + D + 1) = makeLatticeL K s.verts (k + D + 1) 1 := by
    unfold makePoints
    rw [if_neg (by omega), if_neg (by omega), if_pos hsd.symm]
  refine ⟨makeLattice K v0 vs (k + D + 1) 1, by rw [hmp, hv]; rfl, ?_, ?_⟩
  · rw [makeLattice, List.length_map, List.length_map, lattice_indices_length _ _ _ (by omega), hvs,
      if_pos (by omega)]
    congr 1; omega
  · intro p hp h
    exact lattice_unisolvent_simplex s hsd hs hind hd (k + D + 1) 1 k (by omega) (by omega) _
      (by rw [hv]; rfl) p hp h

/-- The dofs of an entity index the points of `make_points` on it; and every entity has such points. -/
private theorem lagrange_assoc {V : Type} [AddCommGroup V] [Module K V] (s : SimplexCell V)
    (hs : FullSimplex s) (k : ℕ) (hk : 1 ≤ k)
    (nodes : List V) (ids : EntityIds ℕ) (hdual : lagrangeDual K s k = some (nodes, ids)) :
    SameEntities s.topo ids ∧ DofsPartition ids nodes.length ∧ DofsIncreasing ids ∧
      ∀ d e l, ids.at? d e = some l → l.map (fun i => nodes[i]?) =
        ((makePoints K s d e k).getD []).map some := by
  have hP' : ∀ d e v, HasEntity s.topo d e v →
      makePoints K s d e k = some (((makePoints K s d e k)).getD []) := by
    intro d e v h
    obtain ⟨pts, h1, _⟩ := make_points_mem (K := K) s hs k hk h
    rw [h1]; rfl
  obtain ⟨nodes', ids', hnum, _, h⟩ := number_entities_spec s.topo hs.wf
    (fun d e => makePoints K s d e k) (fun x => (makePoints K s x.1 x.2 k).getD []) hP'
  rw [lagrangeDual, hnum, Option.map_some, Option.some.injEq, Prod.mk.injEq] at hdual
  obtain ⟨rfl, rfl⟩ := hdual
  exact h

/-- C21: `entity_dofs` has an entry for exactly the entities of the cell, partitions
`range(space_dimension)` and increases with dimension and entity number. -/
theorem lagrange_dofs_partition {V : Type} [AddCommGroup V] [Module K V] (s : SimplexCell V)
    (hs : FullSimplex s) (k : ℕ) (hk : 1 ≤ k)
    (nodes : List V) (ids : EntityIds ℕ) (hdual : lagrangeDual K s k = some (nodes, ids)) :
    SameEntities s.topo ids ∧ DofsPartition ids nodes.length ∧ DofsIncreasing ids := by
  have h := lagrange_assoc s hs k hk nodes ids hdual
  exact ⟨h.1, h.2.1, h.2.2.1⟩

/-- C21: the node of a dof attached to an entity with vertices `t` lies in the relative interior of the
entity: its barycentric coordinates are nonzero exactly at the vertices of the entity, and there
positive. -/
theorem lagrange_node_interior {V : Type} [AddCommGroup V] [Module K V] (s : SimplexCell V)
    (hs : FullSimplex s) (k : ℕ) (hk : 1 ≤ k)
    (nodes : List V) (ids : EntityIds ℕ) (hdual : lagrangeDual K s k = some (nodes, ids))
    {d e : ℕ} {t : List ℕ} (h : HasEntity s.topo d e t) {l : List ℕ} (hl : ids.at? d e = some l)
    {i : ℕ} (hi : i ∈ l) :
    ∃ x, nodes[i]? = some x ∧ ∃ c : ℕ → K, (∀ j, j ∈ t → 0 < c j) ∧ (∀ j, j ∉ t → c j = 0) ∧
      ∑ j ∈ Finset.range (s.sd + 1), c j = 1 ∧ x = ∑ j ∈ Finset.range (s.sd + 1), c j • s.v j := by
  have hk0 : (k : K) ≠ 0 := by positivity
  have ha := (lagrange_assoc s hs k hk nodes ids hdual).2.2.2 d e l hl
  obtain ⟨pts, h1, h2⟩ := make_points_mem (K := K) s hs k hk h
  rw [h1, Option.getD_some] at ha
  have hm : nodes[i]? ∈ l.map (fun i => nodes[i]?) := List.mem_map_of_mem hi
  rw [ha] at hm
  obtain ⟨x, hx, hxe⟩ := List.mem_map.1 hm
  obtain ⟨β, h3, h4, h5⟩ := (h2 x).1 hx
  refine ⟨x, hxe.symm, fun j => (β j : K) / k, fun j hj => ?_, fun j hj => ?_, ?_, h5⟩
  · have : 0 < β j := Nat.pos_of_ne_zero ((h3 j).2 hj)
    have h' : (0 : K) < β j := by exact_mod_cast this
    have h'' : (0 : K) < k := by exact_mod_cast hk
    exact div_pos h' h''
  · have : β j = 0 := by by_contra hc; exact hj ((h3 j).1 hc)
    simp [this]
  · rw [← Finset.sum_div]
    have : ∑ j ∈ Finset.range (s.sd + 1), (β j : K) = k := by exact_mod_cast h4
    rw [this, div_self hk0]

/-- C21: a polynomial of degree at most `k` that vanishes at the nodes in the closure of an entity
vanishes on the whole entity (indeed on its affine hull).  In particular a nodal basis function whose
dof is not in the closure of the entity vanishes there: this is C0 continuity. -/
theorem lagrange_c0 (s : SimplexCell (Fin D → K)) (hs : FullSimplex s) (k : ℕ) (hk : 1 ≤ k)
    (nodes : List (Fin D → K)) (ids : EntityIds ℕ) (hdual : lagrangeDual K s k = some (nodes, ids))
    {d e : ℕ} {t : List ℕ} (h : HasEntity s.topo d e t)
    (p : MvPolynomial (Fin D) K) (hp : p.totalDegree ≤ k)
    (hz : ∀ i x, InClosure s.topo ids t i → nodes[i]? = some x → eval x p = 0)
    (c : ℕ → K) (hc0 : ∀ j, j ∉ t → c j = 0) (hc1 : ∑ j ∈ Finset.range (s.sd + 1), c j = 1) :
    eval (∑ j ∈ Finset.range (s.sd + 1), c j • s.v j) p = 0 := by
  obtain ⟨hnd, hlen, hlt⟩ := hs.entity d e t h
  have hassoc := lagrange_assoc s hs k hk nodes ids hdual
  -- lattice points supported in `t` are closure nodes
  have hlat : ∀ β : ℕ → ℕ, (∀ i, β i ≠ 0 → i ∈ t) → ∑ i ∈ Finset.range (s.sd + 1), β i = k →
      eval (baryPt K s.v (s.sd + 1) k β) p = 0 := by
    intro β hβ hsum
    obtain ⟨d', e', t', ht', hS⟩ := hs.all ((Finset.range (s.sd + 1)).filter fun i => β i ≠ 0) (by
        by_contra hc
        rw [Finset.not_nonempty_iff_eq_empty, Finset.filter_eq_empty_iff] at hc
        rw [Finset.sum_eq_zero (fun i hi => by simpa using hc hi)] at hsum
        omega) (Finset.filter_subset _ _)
    have hmem : ∀ i, β i ≠ 0 ↔ i ∈ t' := by
      intro i
      rw [← List.mem_toFinset, hS, Finset.mem_filter, Finset.mem_range]
      exact ⟨fun h => ⟨hlt i (hβ i h), h⟩, fun h => h.2⟩
    obtain ⟨pts, h1, h2⟩ := make_points_mem (K := K) s hs k hk ht'
    obtain ⟨l', hl'⟩ := Option.isSome_iff_exists.1 ((hassoc.1 d' e').2 ⟨t', ht'⟩)
    have ha := hassoc.2.2.2 d' e' l' hl'
    rw [h1, Option.getD_some] at ha
    have hx : baryPt K s.v (s.sd + 1) k β ∈ pts := (h2 _).2 ⟨β, hmem, hsum, rfl⟩
    have hx' : some (baryPt K s.v (s.sd + 1) k β) ∈ l'.map (fun i => nodes[i]?) := by
      rw [ha]; exact List.mem_map_of_mem hx
    obtain ⟨i, hi, hix⟩ := List.mem_map.1 hx'
    exact hz i _ ⟨d', e', t', l', ht', fun x hx => hβ x ((hmem x).2 hx), hl', hi⟩ hix
  match ht : t, hlen with
  | t0 :: ts, hlen =>
    have hpt : ∑ j ∈ Finset.range (s.sd + 1), c j • s.v j =
        s.v t0 + ∑ i : Fin (ts.map s.v).length, (c (ts[i]'(by simpa using i.2))) • ((ts.map s.v).get i - s.v t0) := by
      have e1 : ∑ j ∈ Finset.range (s.sd + 1), c j • s.v j =
          c t0 • s.v t0 + (ts.map fun j => c j • s.v j).sum := by
        rw [sum_range_eq_list _ hnd (s.sd + 1) hlt _ (fun i hi => by simp [hc0 i hi])]; simp
      have e2 : c t0 = 1 - (ts.map c).sum := by
        rw [sum_range_eq_list _ hnd (s.sd + 1) hlt _ hc0] at hc1
        rw [List.map_cons, List.sum_cons] at hc1
        linear_combination hc1
      have e3 : ∀ (ts : List ℕ), (ts.map fun j => c j • s.v j).sum - (ts.map c).sum • s.v t0 =
          ∑ i : Fin (ts.map s.v).length, (c (ts[i]'(by simpa using i.2))) • ((ts.map s.v).get i - s.v t0) := by
        intro ts
        induction ts with
        | nil =>
          refine Eq.trans ?_ (Fin.sum_univ_zero _).symm
          simp
        | cons a ts ih =>
          have := Fin.sum_univ_succ (fun i : Fin (((a :: ts).map s.v).length) =>
            (c ((a :: ts)[i]'(by simpa using i.2))) • (((a :: ts).map s.v).get i - s.v t0))
          refine Eq.trans ?_ this.symm
          simp only [List.map_cons, List.sum_cons]
          rw [add_smul, add_sub_add_comm, ih, ← smul_sub]
          rfl
      rw [e1, e2, ← e3]
      rw [sub_smul, one_smul]; abel
    rcases ts with _ | ⟨t1, ts'⟩
    · -- a vertex
      have := hlat (fun i => if i = t0 then k else 0) (fun i hi => by
          by_contra hc; simp at hc; simp [hc] at hi)
        (by rw [Finset.sum_ite_eq', if_pos (Finset.mem_range.2 (hlt t0 (by simp)))])
      rw [hpt]
      have hb : baryPt K s.v (s.sd + 1) k (fun i => if i = t0 then k else 0) = s.v t0 := by
        have hk0 : (k : K) ≠ 0 := by positivity
        rw [baryPt, sum_range_eq_list [t0] (by simp) (s.sd + 1) (by simpa using hlt t0 (by simp)) _
          (fun i hi => by simp at hi; simp [hi])]
        simp [div_self hk0]
      rw [hb] at this
      rw [← this]
      congr 2
      refine (congrArg (s.v t0 + ·) (Fin.sum_univ_zero _)).trans ?_
      simp
    · rw [hpt]
      refine lattice_vanish (s.v t0) ((t1 :: ts').map s.v) (by simp) k 0 k hk (by omega) p hp ?_ _
      intro x hx
      rw [mem_makeLattice s.v (s.sd + 1) k 0 t0 (t1 :: ts') hk (by simp) hnd hlt x] at hx
      obtain ⟨β, h0, _, h1, rfl⟩ := hx
      exact hlat β (fun i hi => by by_contra hc; exact hi (h0 i hc)) h1

end unisolvence
end FIAT
