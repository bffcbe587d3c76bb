/-
C25: `RestrictedElement` keeps exactly the chosen dofs.
-/
import Verif.Model.Restricted
import Verif.Props.Dofs
import Verif.Props.Ciarlet
import Verif.Lemmas.DofCheck

namespace FIAT
section
variable {δ : Type} [LinearOrder δ]

private theorem restrictDofs_eq (indices : List ℤ) (dofs : List ℕ) (c : ℕ) (kept l : List ℕ) :
    restrictDofs indices dofs (c, kept, l) =
      (c + (dofs.filter fun (i : ℕ) => decide ((i : ℤ) ∈ indices)).length,
        kept ++ dofs.filter (fun (i : ℕ) => decide ((i : ℤ) ∈ indices)),
        l ++ List.range' c (dofs.filter fun (i : ℕ) => decide ((i : ℤ) ∈ indices)).length) := by
  unfold restrictDofs
  induction dofs generalizing c kept l with
  | nil => simp
  | cons a dofs ih =>
    rw [List.foldl_cons]
    by_cases h : (a : ℤ) ∈ indices
    · rw [if_neg (by simpa using h), ih, List.filter_cons_of_pos (by simpa using h)]
      simp only [List.length_cons, List.append_assoc, List.singleton_append, List.range'_succ]
      refine Prod.ext (by simp; omega) (Prod.ext rfl ?_)
      simp
    · rw [if_pos h, ih, List.filter_cons_of_neg (by simpa using h)]

/-- The entities in the order of the dictionary. -/
def dictOrder (ids : EntityIds δ) : List (δ × ℕ) := ids.flatMap fun p => p.2.map fun q => (p.1, q.1)

theorem dictOrder_nodup {ids : EntityIds δ} (h : Topology.WF ids) : (dictOrder ids).Nodup := by
  unfold dictOrder
  rw [List.nodup_flatMap]
  refine ⟨fun p hp => ?_, ?_⟩
  · have : (p.2.map fun q => (p.1, q.1)) = (Dict.keys p.2).map fun e => (p.1, e) := by
      simp [Dict.keys, List.map_map, Function.comp_def]
    rw [this]
    exact List.Nodup.map (fun a b h => by simpa using h) (h.2 p hp)
  · refine (List.pairwise_map.1 h.1).imp fun {a b} hab => ?_
    intro x hx hy
    obtain ⟨_, _, rfl⟩ := List.mem_map.1 hx
    obtain ⟨_, _, h2⟩ := List.mem_map.1 hy
    exact hab (Prod.mk.inj h2).1.symm

theorem mem_dictOrder {ids : EntityIds δ} (h : Topology.WF ids) {d : δ} {e : ℕ} :
    (d, e) ∈ dictOrder ids ↔ (ids.at? d e).isSome := by
  unfold dictOrder EntityIds.at?
  rw [List.mem_flatMap]
  constructor
  · rintro ⟨p, hp, hq⟩
    obtain ⟨q, hq2, he⟩ := List.mem_map.1 hq
    obtain ⟨rfl, rfl⟩ := Prod.mk.inj he
    rw [Dict.get?_of_mem h.1 (k := p.1) (v := p.2) hp]
    simp only [Option.bind_some]
    rw [Dict.get?_of_mem (h.2 p hp) (k := q.1) (v := q.2) hq2]; rfl
  · intro hs
    obtain ⟨l, hl⟩ := Option.isSome_iff_exists.1 hs
    obtain ⟨m, h1, h2⟩ := Option.bind_eq_some_iff.1 hl
    exact ⟨(d, m), Dict.mem_of_get? h1, List.mem_map.2 ⟨(e, l), Dict.mem_of_get? h2, rfl⟩⟩

/-- The kept dofs of an entity. -/
def keptOn (indices : List ℤ) (ids : EntityIds δ) (x : δ × ℕ) : List ℕ :=
  ((ids.at? x.1 x.2).getD []).filter fun (i : ℕ) => decide ((i : ℤ) ∈ indices)

private theorem restrictLoop_eq (indices : List ℤ) (ids : EntityIds δ) (h : Topology.WF ids) :
    ∃ ids', restrictLoop indices ids =
        some (((dictOrder ids).flatMap (keptOn indices ids)).length,
          (dictOrder ids).flatMap (keptOn indices ids), ids') ∧
      ∀ d e, ids'.at? d e = if (d, e) ∈ dictOrder ids then
        some (List.range' (nodesBefore (keptOn indices ids) (dictOrder ids) (d, e))
          (keptOn indices ids (d, e)).length) else none := by
  have hfold := layout_fold (keptOn indices ids) (fun d e => some (keptOn indices ids (d, e))) ids [] (0, [], [])
    (fun _ _ _ _ => rfl) (by rw [List.nil_append]; exact dictOrder_nodup h) (by simp [Dict.keys]) h.1
    ⟨rfl, rfl, fun d e => by simp [EntityIds.at?]⟩
  obtain ⟨st, h1, h2⟩ := hfold
  have heq : restrictLoop indices ids = some st := by
    rw [← h1]
    unfold restrictLoop
    have key : ∀ (L : List (δ × Dict ℕ (List ℕ))), (∀ p ∈ L, p ∈ ids) → ∀ st : ℕ × List ℕ × EntityIds δ,
        L.foldlM (fun st p =>
          p.2.foldlM (fun (st : ℕ × List ℕ × EntityIds δ) q => do
            let inner ← st.2.2.get? p.1
            let r := restrictDofs indices q.2 (st.1, st.2.1, [])
            some (r.1, r.2.1, Dict.put st.2.2 p.1 (Dict.put inner q.1 r.2.2)))
          (st.1, st.2.1, Dict.put st.2.2 p.1 [])) st =
        L.foldlM (fun st p =>
          p.2.foldlM (fun (st : ℕ × List ℕ × EntityIds δ) q => do
            let new ← (fun d e => some (keptOn indices ids (d, e))) p.1 q.1
            let inner ← st.2.2.get? p.1
            some (st.1 + new.length, st.2.1 ++ new,
              Dict.put st.2.2 p.1 (Dict.put inner q.1 (List.range' st.1 new.length))))
          (st.1, st.2.1, Dict.put st.2.2 p.1 [])) st := by
      intro L
      induction L with
      | nil => intro _ st; rfl
      | cons p L ih =>
        intro hL st
        rw [List.foldlM_cons, List.foldlM_cons]
        have inner : ∀ (Q : List (ℕ × List ℕ)), (∀ q ∈ Q, q ∈ p.2) → ∀ st : ℕ × List ℕ × EntityIds δ,
            Q.foldlM (fun (st : ℕ × List ℕ × EntityIds δ) q => do
              let inner ← st.2.2.get? p.1
              let r := restrictDofs indices q.2 (st.1, st.2.1, [])
              some (r.1, r.2.1, Dict.put st.2.2 p.1 (Dict.put inner q.1 r.2.2))) st =
            Q.foldlM (fun (st : ℕ × List ℕ × EntityIds δ) q => do
              let new ← (fun d e => some (keptOn indices ids (d, e))) p.1 q.1
              let inner ← st.2.2.get? p.1
              some (st.1 + new.length, st.2.1 ++ new,
                Dict.put st.2.2 p.1 (Dict.put inner q.1 (List.range' st.1 new.length)))) st := by
          intro Q
          induction Q with
          | nil => intro _ st; rfl
          | cons q Q ihQ =>
            intro hQ st
            rw [List.foldlM_cons, List.foldlM_cons]
            have hp : p ∈ ids := hL p (by simp)
            have hk : keptOn indices ids (p.1, q.1) = q.2.filter fun (i : ℕ) => decide ((i : ℤ) ∈ indices) := by
              unfold keptOn EntityIds.at?
              rw [Dict.get?_of_mem h.1 (k := p.1) (v := p.2) hp]
              simp only [Option.bind_some]
              rw [Dict.get?_of_mem (h.2 p hp) (k := q.1) (v := q.2) (hQ q (by simp))]
              rfl
            simp only [restrictDofs_eq, Option.bind_eq_bind, Option.bind_some, hk, List.nil_append]
            have := fun s => ihQ (fun q' hq' => hQ q' (by simp [hq'])) s
            simp only [restrictDofs_eq, Option.bind_eq_bind, Option.bind_some, List.nil_append] at this
            simp only [this]
        rw [inner p.2 (fun q hq => hq)]
        have := ih (fun p' hp' => hL p' (by simp [hp']))
        simp only [this]
    exact key ids (fun p hp => hp) _
  rw [List.nil_append] at h2
  obtain ⟨c, nodes, ids'⟩ := st
  refine ⟨ids', ?_, h2.ids⟩
  rw [heq]
  have e1 := h2.cur; have e2 := h2.nodes
  simp only at e1 e2
  rw [e1, e2]; rfl

/-- The kept dofs, in entity order. -/
theorem mem_kept {ids : EntityIds δ} (h : Topology.WF ids) {n : ℕ} (hp : DofsPartition ids n) (indices : List ℤ) (i : ℕ) :
    i ∈ (dictOrder ids).flatMap (keptOn indices ids) ↔ i < n ∧ (i : ℤ) ∈ indices := by
  rw [List.mem_flatMap]
  constructor
  · rintro ⟨x, _, hi⟩
    unfold keptOn at hi
    rw [List.mem_filter] at hi
    cases hx : ids.at? x.1 x.2 with
    | none => rw [hx] at hi; simp at hi
    | some l =>
      rw [hx] at hi
      exact ⟨(hp.1 _ _ _ hx).2 i hi.1, by simpa using hi.2⟩
  · rintro ⟨hi, hm⟩
    obtain ⟨⟨d, e⟩, ⟨l, hl, hil⟩, _⟩ := hp.2 i hi
    refine ⟨(d, e), (mem_dictOrder h).2 (by simp only at hl; rw [hl]; rfl), ?_⟩
    unfold keptOn
    simp only at hl
    rw [hl, List.mem_filter]
    exact ⟨hil, by simpa using hm⟩

private theorem kept_nodup {ids : EntityIds δ} (h : Topology.WF ids) {n : ℕ} (hp : DofsPartition ids n) (indices : List ℤ) :
    ((dictOrder ids).flatMap (keptOn indices ids)).Nodup := by
  rw [List.nodup_flatMap]
  refine ⟨fun x _ => ?_, ?_⟩
  · unfold keptOn
    cases hx : ids.at? x.1 x.2 with
    | none => simp
    | some l => exact (hp.1 _ _ _ hx).1.filter _
  · refine (dictOrder_nodup h).imp_of_mem fun {x y} hx hy hne => ?_
    intro i hi hi'
    unfold keptOn at hi hi'
    rw [List.mem_filter] at hi hi'
    obtain ⟨lx, hlx⟩ := Option.isSome_iff_exists.1 ((mem_dictOrder h).1 hx)
    obtain ⟨ly, hly⟩ := Option.isSome_iff_exists.1 ((mem_dictOrder h).1 hy)
    rw [hlx] at hi; rw [hly] at hi'
    have hin : i < n := (hp.1 _ _ _ hlx).2 i hi.1
    obtain ⟨z, _, hu⟩ := hp.2 i hin
    exact hne ((hu x ⟨lx, hlx, hi.1⟩).trans (hu y ⟨ly, hly, hi'.1⟩).symm)

/-- C25: exactly the nonempty duplicate-free selections of existing dofs are accepted. -/
theorem restrict_accepts_iff {ids : EntityIds δ} (h : Topology.WF ids) {n : ℕ} (hp : DofsPartition ids n)
    (indices : List ℤ) :
    (restrict indices ids).isSome ↔ indices ≠ [] ∧ indices.Nodup ∧ ∀ i ∈ indices, 0 ≤ i ∧ i < (n : ℤ) := by
  obtain ⟨ids', h1, _⟩ := restrictLoop_eq indices ids h
  set kept := (dictOrder ids).flatMap (keptOn indices ids) with hkept
  have hnd : kept.Nodup := kept_nodup h hp indices
  have hmem : ∀ i, i ∈ kept ↔ i < n ∧ (i : ℤ) ∈ indices := mem_kept h hp indices
  have hsub : kept.map (fun i : ℕ => (i : ℤ)) ⊆ indices := by
    intro z hz
    obtain ⟨i, hi, rfl⟩ := List.mem_map.1 hz
    exact ((hmem i).1 hi).2
  have hndz : (kept.map (fun i : ℕ => (i : ℤ))).Nodup := List.Nodup.map (fun a b h => by simpa using h) hnd
  have hrun : (restrict indices ids).isSome ↔ indices ≠ [] ∧ kept.length = indices.length := by
    unfold restrict
    by_cases he : indices = []
    · simp [he]
    · rw [if_neg (by simpa using he), h1]
      simp only [Option.bind_eq_bind, Option.bind_some]
      split_ifs with hc <;> simp [he, hc]
  rw [hrun]
  have hsp : List.Subperm (kept.map (fun i : ℕ => (i : ℤ))) indices := List.subperm_of_subset hndz hsub
  constructor
  · rintro ⟨hne, hlen⟩
    have hperm := hsp.perm_of_length_le (by simp [hlen])
    refine ⟨hne, hperm.nodup_iff.1 hndz, fun i hi => ?_⟩
    obtain ⟨j, hj, rfl⟩ := List.mem_map.1 (hperm.mem_iff.2 hi)
    have := ((hmem j).1 hj).1
    omega
  · rintro ⟨hne, hn, hr⟩
    refine ⟨hne, ?_⟩
    have h2 : List.Subperm indices (kept.map (fun i : ℕ => (i : ℤ))) := by
      apply List.subperm_of_subset hn
      intro z hz
      obtain ⟨h3, h4⟩ := hr z hz
      refine List.mem_map.2 ⟨z.toNat, (hmem _).2 ⟨by omega, ?_⟩, by omega⟩
      rw [Int.toNat_of_nonneg h3]; exact hz
    have a := h2.length_le; have b := hsp.length_le
    simp only [List.length_map] at a b
    omega

/-- C25: the nodes kept are the chosen ones, each once; they are renumbered in entity order; every entity keeps
its chosen dofs in their old order, and the new numbering is a partition. -/
theorem restrict_spec {ids : EntityIds δ} (h : Topology.WF ids) {n : ℕ} (hp : DofsPartition ids n)
    (indices : List ℤ) {kept : List ℕ} {ids' : EntityIds δ} (hr : restrict indices ids = some (kept, ids')) :
    kept.Nodup ∧ (∀ i : ℕ, i ∈ kept ↔ (i : ℤ) ∈ indices) ∧ kept.length = indices.length ∧
    (∀ d e, (ids'.at? d e).isSome ↔ (ids.at? d e).isSome) ∧
    DofsPartition ids' kept.length ∧
    ∀ d e l l', ids.at? d e = some l → ids'.at? d e = some l' →
      l'.map (fun j => kept[j]?) = (l.filter fun (i : ℕ) => decide ((i : ℤ) ∈ indices)).map some := by
  obtain ⟨ids'', h1, h2⟩ := restrictLoop_eq indices ids h
  have hacc := (restrict_accepts_iff h hp indices).1 (by rw [hr]; rfl)
  unfold restrict at hr
  rw [if_neg (by simpa using hacc.1), h1] at hr
  simp only [Option.bind_eq_bind, Option.bind_some] at hr
  split_ifs at hr with hc
  obtain ⟨hk, hi⟩ := Prod.mk.inj (Option.some.inj hr)
  subst hi
  have hlay := layout_partition (keptOn indices ids) (dictOrder ids) (dictOrder_nodup h) ids'' h2
  rw [hk] at hlay hc
  refine ⟨hk ▸ kept_nodup h hp indices, fun i => ?_, hc, fun d e => ?_, hlay.1, ?_⟩
  · rw [← hk, mem_kept h hp]
    constructor
    · exact fun h => h.2
    · intro hm
      exact ⟨by have := (hacc.2.2 _ hm).2; omega, hm⟩
  · rw [h2, ← mem_dictOrder h]
    split_ifs with hx <;> simp [hx]
  · intro d e l l' hl hl'
    have := hlay.2 d e l' hl'
    rw [this]
    unfold keptOn
    simp only [hl, Option.getD_some]

/-- Non-vacuity: keep the vertex dofs of the quadratic element on the interval. -/
def exR2 : EntityIds Key := [(.int 0, [(0, [0]), (1, [1])]), (.int 1, [(0, [2])])]

example : restrict [1, 0] exR2 = some ([0, 1], [(.int 0, [(0, [0]), (1, [1])]), (.int 1, [(0, [])])]) := by decide
example : restrict [1, 1] exR2 = none := by decide
example : restrict [3] exR2 = none := by decide
example : restrict [-1] exR2 = none := by decide
example : Topology.WF exR2 ∧ DofsPartition exR2 3 := by
  have w2 : Topology.WF exR2 := by unfold Topology.WF Dict.WF exR2; decide
  exact ⟨w2, dofsPartition_of_perm _ _ w2 (by decide)⟩
end

/-! ### Basis functions -/

section basis
open MvPolynomial
variable {K : Type} [Field K] [DecidableEq K] {D N : ℕ}

private theorem takeRows_field {m r : ℕ} {Cp : Type} [Fintype Cp] (phi : Fin N → MvPolynomial (Fin D) K)
    (comp : Cp → List ℕ) (S : PolySet K (Fin D → K) N m Cp) (items : Fin r → Fin m) (j : Fin r) :
    (S.takeRows items).field phi comp j = S.field phi comp (items j) := rfl

/-- C25: let `S` be the nodal basis of an element with the given nodes.  Restricting it to the rows `items` (in the
order given by the user) and the dual set to the nodes `kept` (in entity order; the same dofs) and building a
`CiarletElement` succeeds, and its basis function `j` is the old basis function of the dof `kept j`. -/
theorem restricted_basis (phi : Fin N → MvPolynomial (Fin D) K) (E : ExpTab K (Fin D → K))
    (hnum : E.num = N) (hE : E.Spec D (valOf phi) (derOf phi))
    (nodes : List (Functional K (Fin D → K)))
    {m r : ℕ} {Cp : Type} [Fintype Cp] (comp : Cp → List ℕ) (hcomp : Function.Injective comp)
    (S : PolySet K (Fin D → K) N m Cp) (hlen : nodes.length = m) (hnodal : Nodal nodes (S.field phi comp))
    (items kept : Fin r → Fin m) (hr : 0 < r) (hk : Function.Injective kept) (hi : Function.Injective items)
    (hrange : Set.range kept = Set.range items)
    (hwf : ∀ l ∈ nodes, l.WF D)
    (hord : (∃ j, ∃ l, nodes[(kept j : ℕ)]? = some l ∧ 0 < l.maxDerivOrder) ∨
      ∀ j l, nodes[(kept j : ℕ)]? = some l → l.deriv = []) :
    ∃ S', ciarletElement E comp (S.takeRows items)
        (List.ofFn fun j => nodes[(kept j : ℕ)]'(by rw [hlen]; exact (kept j).2)) = some S' ∧
      ∀ j, S'.field phi comp j = S.field phi comp (kept j) := by
  classical
  have hget : ∀ j : Fin r, nodes[(kept j : ℕ)]? = some (nodes[(kept j : ℕ)]'(by rw [hlen]; exact (kept j).2)) :=
    fun j => List.getElem?_eq_getElem _
  set knodes := List.ofFn fun j => nodes[(kept j : ℕ)]'(by rw [hlen]; exact (kept j).2) with hkn
  have hkl : knodes.length = r := by simp [hkn]
  have hkget : ∀ j : Fin r, knodes[(j : ℕ)]? = some (nodes[(kept j : ℕ)]'(by rw [hlen]; exact (kept j).2)) := by
    intro j
    rw [hkn]
    simp
  have hmem : ∀ l ∈ knodes, ∃ j : Fin r, nodes[(kept j : ℕ)]? = some l := by
    intro l hl
    rw [hkn, List.mem_ofFn] at hl
    obtain ⟨j, rfl⟩ := hl
    exact ⟨j, hget j⟩
  have hVentry : ∀ i j : Fin r, vandermonde knodes ((S.takeRows items).field phi comp) i j =
      if kept i = items j then 1 else 0 := by
    intro i j
    unfold vandermonde
    rw [Matrix.of_apply, hkget i]
    show Functional.onField _ (S.field phi comp (items j)) = _
    rw [hnodal _ _ (hget i) (items j)]
    simp [Fin.ext_iff]
  have hV : (vandermonde knodes ((S.takeRows items).field phi comp)).det ≠ 0 := by
    have hmul : vandermonde knodes ((S.takeRows items).field phi comp) *
        (vandermonde knodes ((S.takeRows items).field phi comp)).transpose = 1 := by
      ext i i'
      rw [Matrix.mul_apply, Matrix.one_apply]
      simp only [Matrix.transpose_apply, hVentry]
      obtain ⟨j0, hj0⟩ : kept i ∈ Set.range items := by rw [← hrange]; exact ⟨i, rfl⟩
      rw [Finset.sum_eq_single j0]
      · rw [if_pos hj0.symm, one_mul, hj0]
        by_cases h : i = i'
        · subst h; simp
        · rw [if_neg h, if_neg (fun he => h (hk he).symm)]
      · intro j _ hj
        rw [if_neg (fun he => hj (hi (he.symm.trans hj0.symm)) ), zero_mul]
      · intro h; exact absurd (Finset.mem_univ _) h
    have hd := congrArg Matrix.det hmul
    rw [Matrix.det_mul, Matrix.det_one] at hd
    intro h0
    rw [h0, zero_mul] at hd
    exact zero_ne_one hd
  obtain ⟨S', h1, _, _, _, h5, h6⟩ := ciarlet_nodal phi E hnum hE knodes (by
      intro h; rw [h] at hkl; simp at hkl; omega)
    (fun l hl => by obtain ⟨j, hj⟩ := hmem l hl; exact hwf l (List.mem_of_getElem? hj))
    (by
      rcases hord with ⟨j, l, hl, hpos⟩ | h
      · refine Or.inl ⟨l, ?_, hpos⟩
        rw [hget j] at hl
        obtain rfl := Option.some.inj hl
        exact List.mem_of_getElem? (hkget j)
      · exact Or.inr fun l hl => by obtain ⟨j, hj⟩ := hmem l hl; exact h j l hj)
    comp hcomp (S.takeRows items) hkl hV
  refine ⟨S', h1, fun j => ?_⟩
  have huniq := nodal_unique knodes hkl (S'.field phi comp) (fun j => S.field phi comp (kept j)) h5 (by
    intro i l hl j
    have hi : i < r := by rw [← hkl]; exact (List.getElem?_eq_some_iff.1 hl).1
    have := hkget ⟨i, hi⟩
    simp only at this
    rw [this] at hl
    obtain rfl := Option.some.inj hl
    rw [hnodal _ _ (hget ⟨i, hi⟩) (kept j)]
    have : (((kept ⟨i, hi⟩ : Fin m) : ℕ) = (kept j : ℕ)) ↔ i = (j : ℕ) := by
      rw [← Fin.ext_iff, hk.eq_iff, Fin.ext_iff]
    simp only [this]) (by
    have hr2 : Set.range (fun j => S.field phi comp (kept j)) = Set.range ((S.takeRows items).field phi comp) := by
      have a : Set.range (fun j => S.field phi comp (kept j)) = S.field phi comp '' Set.range kept := by
        rw [← Set.range_comp]; rfl
      have b : Set.range ((S.takeRows items).field phi comp) = S.field phi comp '' Set.range items := by
        rw [← Set.range_comp]; rfl
      rw [a, b, hrange]
    unfold SameSpan at h6 ⊢
    rw [h6, hr2])
  exact congrFun huniq j

/-- Non-vacuity: the nodal basis `1 - x, x` on the line, restricted to its second dof. -/
example (mats : List (Matrix (Fin 2) (Fin 2) ℚ)) (h : DmatSpec exPhi mats) :
    ∃ S', ciarletElement (onExpTab 2 1 exBase mats) (fun _ : Unit => [])
        ((⟨1, exBase, fun i _ k => (![![1, -1], ![0, 1]] : Matrix (Fin 2) (Fin 2) ℚ) i k, mats⟩ :
          PolySet ℚ (Fin 1 → ℚ) 2 2 Unit).takeRows (fun _ : Fin 1 => 1))
        [pointEvaluation (fun _ => (1 : ℚ))] = some S' ∧
      ∀ j, S'.field exPhi (fun _ : Unit => []) j [] = X 0 := by
  obtain ⟨S', h1, h2⟩ := restricted_basis exPhi (onExpTab 2 1 exBase mats) rfl
    (on_exp_tab_spec le_rfl exPhi exBase exBase_spec mats h)
    [pointEvaluation (fun _ => (0 : ℚ)), pointEvaluation (fun _ => (1 : ℚ))] (fun _ : Unit => [])
    (fun _ _ _ => rfl)
    (⟨1, exBase, fun i _ k => (![![1, -1], ![0, 1]] : Matrix (Fin 2) (Fin 2) ℚ) i k, mats⟩ :
      PolySet ℚ (Fin 1 → ℚ) 2 2 Unit) rfl
    (by
      intro i l hl j
      match i with
      | 0 =>
        obtain rfl := Option.some.inj hl
        fin_cases j <;>
          simp [Functional.onField, PolySet.field, PolySet.member, exPhi, pointEvaluation, Functional.apply]
      | 1 =>
        obtain rfl := Option.some.inj hl
        fin_cases j <;>
          simp [Functional.onField, PolySet.field, PolySet.member, exPhi, pointEvaluation, Functional.apply]
      | (i + 2) => simp at hl)
    (fun _ : Fin 1 => 1) (fun _ : Fin 1 => 1) one_pos (Function.injective_of_subsingleton _)
    (Function.injective_of_subsingleton _) rfl
    (by
      intro l hl
      simp only [List.mem_cons, List.not_mem_nil, or_false] at hl
      rcases hl with rfl | rfl <;> exact ⟨by simp [pointEvaluation, Dict.WF, Dict.keys],
        by simp [pointEvaluation, Dict.WF, Dict.keys], by simp [pointEvaluation]⟩)
    (Or.inr (by
      intro j l hl
      have hl' : some (pointEvaluation (fun _ : Fin 1 => (1 : ℚ))) = some l := hl
      obtain rfl := Option.some.inj hl'
      rfl))
  refine ⟨S', h1, fun j => ?_⟩
  rw [h2]
  simp [PolySet.field, PolySet.member, exPhi]

end basis

/-! ### Restriction domains -/

private theorem mem_entityDofsSorted {m : Dict ℕ (List ℕ)} {i : ℕ} (hm : Dict.WF m) :
    i ∈ entityDofsSorted m ↔ ∃ e l, m.get? e = some l ∧ i ∈ l := by
  unfold entityDofsSorted
  rw [List.mem_flatMap]
  constructor
  · rintro ⟨q, hq, hi⟩
    exact ⟨q.1, q.2, Dict.get?_of_mem hm (mem_sortedItems.1 hq), hi⟩
  · rintro ⟨e, l, h, hi⟩
    exact ⟨(e, l), mem_sortedItems.2 (Dict.mem_of_get? h), hi⟩

private theorem maxKey_spec (ks : List Key) (k : Key) (h : maxKey ks = some k) : k ∈ ks ∧ ∀ x ∈ ks, x ≤ k := by
  cases ks with
  | nil => simp [maxKey] at h
  | cons a ks =>
    simp only [maxKey, Option.some.injEq] at h
    subst h
    have : ∀ (L : List Key) (a : Key), (L.foldl max a ∈ a :: L) ∧ a ≤ L.foldl max a ∧ ∀ x ∈ L, x ≤ L.foldl max a := by
      intro L
      induction L with
      | nil => intro a; simp
      | cons b L ih =>
        intro a
        rw [List.foldl_cons]
        obtain ⟨h1, h2, h3⟩ := ih (max a b)
        refine ⟨?_, (le_max_left a b).trans h2, ?_⟩
        · rcases List.mem_cons.1 h1 with h | h
          · rw [h]; rcases le_total a b with hab | hab
            · rw [max_eq_right hab]; simp
            · rw [max_eq_left hab]; simp
          · simp [h]
        · intro x hx
          rcases List.mem_cons.1 hx with rfl | hx
          · exact (le_max_right a x).trans h2
          · exact h3 x hx
    obtain ⟨h1, h2, h3⟩ := this ks a
    refine ⟨h1, fun x hx => ?_⟩
    rcases List.mem_cons.1 hx with rfl | hx
    · exact h2
    · exact h3 x hx

private theorem foldlM_entities (ids : EntityIds Key) (h : Topology.WF ids) (n : ℕ)
    (hk : ∀ d < n, Key.int d ∈ Dict.keys ids) :
    ∃ l, (List.range n).foldlM (fun acc (d : ℕ) => do
        let entities ← ids.get? (.int d)
        some (acc ++ entityDofsSorted entities)) ([] : List ℕ) = some l ∧
      ∀ i, i ∈ l ↔ ∃ d e l', d < n ∧ ids.at? (.int d) e = some l' ∧ i ∈ l' := by
  induction n with
  | zero => exact ⟨[], rfl, fun i => by simp⟩
  | succ n ih =>
    obtain ⟨l, h1, h2⟩ := ih (fun d hd => hk d (by omega))
    obtain ⟨m, hm⟩ : ∃ m, ids.get? (Key.int n) = some m := by
      obtain ⟨p, hp, he⟩ := List.mem_map.1 (hk n (by omega))
      exact ⟨p.2, Dict.get?_of_mem h.1 (by rw [← he]; exact hp)⟩
    refine ⟨l ++ entityDofsSorted m, ?_, fun i => ?_⟩
    · rw [List.range_succ, List.foldlM_append, h1]
      simp [hm]
    · rw [List.mem_append, h2, mem_entityDofsSorted (h.2 _ (Dict.mem_of_get? hm))]
      constructor
      · rintro (⟨d, e, l', hd, hl, hi⟩ | ⟨e, l', hl, hi⟩)
        · exact ⟨d, e, l', by omega, hl, hi⟩
        · exact ⟨n, e, l', by omega, by unfold EntityIds.at?; rw [hm]; exact hl, hi⟩
      · rintro ⟨d, e, l', hd, hl, hi⟩
        rcases Nat.lt_succ_iff_lt_or_eq.1 hd with hd | rfl
        · exact Or.inl ⟨d, e, l', hd, hl, hi⟩
        · unfold EntityIds.at? at hl
          rw [hm] at hl
          exact Or.inr ⟨e, l', hl, hi⟩

private theorem maxKey_of_mem {ks : List Key} {x : Key} (h : x ∈ ks) : ∃ k, maxKey ks = some k := by
  cases ks with
  | nil => simp at h
  | cons a ks => exact ⟨_, rfl⟩

/-- C25: on a simplex or flattened cell (dimensions `0..sd`), the domains vertex, edge, face and facet select exactly
the dofs on entities of dimension at most 0, 1, 2, `sd - 1`. -/
theorem get_indices_int (sd : ℕ) (ids : EntityIds Key) (h : Topology.WF ids)
    (hkeys : ∀ k, k ∈ Dict.keys ids ↔ ∃ d ≤ sd, k = Key.int d) (dom : Domain) (n : ℕ)
    (hdom : dom.count sd = some n) (hn : n ≤ sd + 1) :
    ∃ l, getIndices sd ids dom = some l ∧
      ∀ i, i ∈ l ↔ ∃ d e l', d < n ∧ ids.at? (.int d) e = some l' ∧ i ∈ l' := by
  obtain ⟨l, h1, h2⟩ := foldlM_entities ids h n (fun d hd => (hkeys _).2 ⟨d, by omega, rfl⟩)
  refine ⟨l, ?_, h2⟩
  obtain ⟨k, hk⟩ := maxKey_of_mem ((hkeys (Key.int 0)).2 ⟨0, by omega, rfl⟩)
  obtain ⟨d, _, hd⟩ := (hkeys k).1 (maxKey_spec _ _ hk).1
  rw [← h1]
  cases dom <;> simp_all [getIndices, Domain.count]

/-- C25: a domain of more than the cell's dimension (e.g. "face" on an interval) raises an error. -/
theorem get_indices_too_high (sd : ℕ) (ids : EntityIds Key)
    (hkeys : ∀ k, k ∈ Dict.keys ids ↔ ∃ d ≤ sd, k = Key.int d) (dom : Domain) (n : ℕ)
    (hdom : dom.count sd = some n) (hn : sd + 1 < n) : getIndices sd ids dom = none := by
  obtain ⟨k, hk⟩ := maxKey_of_mem ((hkeys (Key.int 0)).2 ⟨0, by omega, rfl⟩)
  obtain ⟨d, _, hd⟩ := (hkeys k).1 (maxKey_spec _ _ hk).1
  have hmiss : ids.get? (Key.int (sd + 1)) = none := by
    cases hg : ids.get? (Key.int (sd + 1)) with
    | none => rfl
    | some m =>
      have : Key.int (sd + 1) ∈ Dict.keys ids := List.mem_map.2 ⟨_, Dict.mem_of_get? hg, rfl⟩
      obtain ⟨d, hd, he⟩ := (hkeys _).1 this
      simp at he; omega
  have hnone : ∀ (acc : List ℕ), (List.range n).foldlM (fun acc (d : ℕ) => do
        let entities ← ids.get? (.int d)
        some (acc ++ entityDofsSorted entities)) acc = none := by
    intro acc
    obtain ⟨j, rfl⟩ : ∃ j, n = (sd + 1 + 1) + j := ⟨n - (sd + 2), by omega⟩
    rw [List.range_add, List.foldlM_append, List.range_succ, List.foldlM_append]
    cases hx : (List.range (sd + 1)).foldlM (fun acc (d : ℕ) => do
        let entities ← ids.get? (.int d)
        some (acc ++ entityDofsSorted entities)) acc with
    | none => rfl
    | some a => simp [hmiss]
  have := hnone []
  cases dom <;> simp_all [getIndices, Domain.count]

/-- C25: on a product of two cells (dimensions `(a, b)`), the domains select exactly the dofs on entities of total
dimension `a + b` at most 0, 1, 2, `sd - 1`. -/
theorem get_indices_product (sd : ℕ) (ids : EntityIds Key) (h : Topology.WF ids) (hne : ids ≠ [])
    (hkeys : ∀ k ∈ Dict.keys ids, ∃ a b : ℕ, k = Key.tup [.int a, .int b]) (dom : Domain) (n : ℕ)
    (hdom : dom.count sd = some n) :
    ∃ l, getIndices sd ids dom = some l ∧
      ∀ i, i ∈ l ↔ ∃ a b e l', a + b < n ∧ ids.at? (.tup [.int a, .int b]) e = some l' ∧ i ∈ l' := by
  obtain ⟨k, hk⟩ : ∃ k, maxKey (Dict.keys ids) = some k := by
    cases ids with
    | nil => exact absurd rfl hne
    | cons p ids => exact ⟨_, rfl⟩
  obtain ⟨a0, b0, hab⟩ := hkeys k (maxKey_spec _ _ hk).1
  refine ⟨((List.range n).flatMap fun d => (List.range (d + 1)).flatMap fun a =>
        match ids.get? (Key.tup [.int a, .int (d - a)]) with
        | some entities => entityDofsSorted entities
        | none => []), ?_, fun i => ?_⟩
  · subst hab
    cases dom with
    | interior => simp [Domain.count] at hdom
    | invalid => simp [Domain.count] at hdom
    | _ =>
      unfold getIndices
      simp only [hdom, hk, Option.bind_eq_bind, Option.bind_some]
      rfl
  · simp only [List.mem_flatMap, List.mem_range]
    constructor
    · rintro ⟨d, hd, a, ha, hi⟩
      cases hg : ids.get? (Key.tup [.int a, .int (d - a)]) with
      | none => rw [hg] at hi; simp at hi
      | some m =>
        rw [hg] at hi
        obtain ⟨e, l', hl, hi⟩ := (mem_entityDofsSorted (h.2 _ (Dict.mem_of_get? hg))).1 hi
        exact ⟨a, d - a, e, l', by omega, by unfold EntityIds.at?; rw [hg]; exact hl, hi⟩
    · rintro ⟨a, b, e, l', hab, hl, hi⟩
      refine ⟨a + b, hab, a, by omega, ?_⟩
      rw [Nat.add_sub_cancel_left]
      obtain ⟨m, h1, h2⟩ := Option.bind_eq_some_iff.1 hl
      rw [h1]
      exact (mem_entityDofsSorted (h.2 _ (Dict.mem_of_get? h1))).2 ⟨e, l', h2, hi⟩

/-- C25: the interior domain selects the dofs on entity 0 of the largest dimension, i.e. on the cell itself. -/
theorem get_indices_interior (sd : ℕ) (ids : EntityIds Key) (k : Key) (hk : k ∈ Dict.keys ids)
    (hmax : ∀ x ∈ Dict.keys ids, x ≤ k) : getIndices sd ids .interior = ids.at? k 0 := by
  obtain ⟨k', hk'⟩ := maxKey_of_mem hk
  obtain ⟨h1, h2⟩ := maxKey_spec _ _ hk'
  have : k' = k := le_antisymm (hmax _ h1) (h2 _ hk)
  subst this
  simp [getIndices, hk']

/-- C25: any other domain name is an error. -/
theorem get_indices_invalid (sd : ℕ) (ids : EntityIds Key) : getIndices sd ids .invalid = none := rfl

/-- Non-vacuity: quadratic element on the interval, and a product of two intervals. -/
def exR4 : EntityIds Key :=
  [(.tup [.int 0, .int 0], [(0, [0]), (1, [1]), (2, [2]), (3, [3])]), (.tup [.int 0, .int 1], [(0, []), (1, [])]),
   (.tup [.int 1, .int 0], [(0, []), (1, [])]), (.tup [.int 1, .int 1], [(0, [4])])]

example : getIndices 1 exR2 .vertex = some [0, 1] ∧ getIndices 1 exR2 .facet = some [0, 1] ∧
    getIndices 1 exR2 .edge = some [0, 1, 2] ∧ getIndices 1 exR2 .interior = some [2] ∧
    getIndices 1 exR2 .face = none := by decide +kernel
example : getIndices 2 exR4 .facet = some [0, 1, 2, 3] ∧ getIndices 2 exR4 .interior = some [4] := by decide +kernel
example : Topology.WF exR4 ∧ ∀ k ∈ Dict.keys exR4, ∃ a b : ℕ, k = Key.tup [.int a, .int b] := by
  refine ⟨by unfold Topology.WF Dict.WF exR4; decide, ?_⟩
  intro k hk
  simp only [exR4, Dict.keys, List.map_cons, List.map_nil, List.mem_cons, List.not_mem_nil, or_false] at hk
  rcases hk with rfl | rfl | rfl | rfl <;> exact ⟨_, _, rfl⟩

end FIAT
