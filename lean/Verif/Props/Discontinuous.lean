/-
C22: discontinuous elements attach every dof to the cell.
-/
import Verif.Props.Lagrange
import Mathlib.Data.List.Sublists

namespace FIAT

section
variable {δ : Type} [LinearOrder δ]

/-- Specification: `(D, 0)` is the cell: the only entity of the largest dimension. -/
def IsCellDim (topo : Topology δ) (D : δ) : Prop :=
  (∃ v, HasEntity topo D 0 v) ∧ (∀ e v, HasEntity topo D e v → e = 0) ∧
    ∀ d ∈ Dict.keys topo, d ≤ D

/-- Specification: the cell `(D, 0)` carries the dofs `0, ..., n - 1` in order, every other entity of the
topology carries none, and there are no other entries. -/
def AllOnCell (topo : Topology δ) (D : δ) (ids : EntityIds δ) (n : ℕ) : Prop :=
  SameEntities topo ids ∧ ids.at? D 0 = some (List.range n) ∧
    ∀ d e l, ids.at? d e = some l → (d, e) ≠ (D, 0) → l = []

private theorem inner_empty (d : δ) (l : List (ℕ × List ℕ)) (ids : EntityIds δ)
    (h : (Dict.get? ids d).isSome) (d' : δ) (e' : ℕ) :
    EntityIds.at? (l.foldl (fun (ids : EntityIds δ) q =>
      Dict.put ids d (Dict.put ((Dict.get? ids d).getD []) q.1 [])) ids) d' e' =
      if d' = d ∧ e' ∈ Dict.keys l then some [] else ids.at? d' e' := by
  induction l generalizing ids with
  | nil => simp [Dict.keys]
  | cons q l ih =>
    rw [List.foldl_cons, ih _ (by rw [Dict.get?_put_self]; rfl)]
    have hk : e' ∈ Dict.keys (q :: l) ↔ e' = q.1 ∨ e' ∈ Dict.keys l := by simp [Dict.keys]
    simp only [hk]
    by_cases h1 : d' = d ∧ e' ∈ Dict.keys l
    · rw [if_pos h1, if_pos ⟨h1.1, Or.inr h1.2⟩]
    · rw [if_neg h1, EntityIds.at?_put]
      by_cases h2 : d = d'
      · subst h2
        obtain ⟨m, hm⟩ := Option.isSome_iff_exists.1 h
        simp only [true_and] at h1
        rw [if_pos rfl, Dict.get?_put, hm]
        by_cases h3 : q.1 = e'
        · rw [if_pos h3, if_pos ⟨rfl, Or.inl h3.symm⟩]
        · rw [if_neg h3, if_neg (by rintro ⟨_, h4 | h4⟩ <;> [exact h3 h4.symm; exact h1 h4])]
          simp [EntityIds.at?, hm]
      · rw [if_neg h2, if_neg (fun h4 => h2 h4.1.symm)]

private theorem outer_empty (l : List (δ × Dict ℕ (List ℕ))) (hl : Dict.WF l) (ids : EntityIds δ)
    (d' : δ) (e' : ℕ) :
    EntityIds.at? (l.foldl (fun ids p =>
      (sortedItems p.2).foldl (fun (ids : EntityIds δ) q =>
        Dict.put ids p.1 (Dict.put ((Dict.get? ids p.1).getD []) q.1 [])) (Dict.put ids p.1 [])) ids) d' e' =
      match Dict.get? l d' with
      | some es => if e' ∈ Dict.keys es then some [] else none
      | none => ids.at? d' e' := by
  induction l generalizing ids with
  | nil => rfl
  | cons p l ih =>
    obtain ⟨hp, hl'⟩ := List.nodup_cons.1 hl
    have hkeys : ∀ e, e ∈ Dict.keys (sortedItems p.2) ↔ e ∈ Dict.keys p.2 := fun e =>
      ((sortedItems_perm p.2).map Prod.fst).mem_iff
    rw [List.foldl_cons, ih hl']
    have hc : Dict.get? (p :: l) d' = if p.1 = d' then some p.2 else Dict.get? l d' :=
      Dict.get?_cons _ _ _ _
    rw [hc]
    have hin := inner_empty p.1 (sortedItems p.2) (Dict.put ids p.1 [])
      (by rw [Dict.get?_put_self]; rfl) d' e'
    by_cases h1 : p.1 = d'
    · have hn : Dict.get? l d' = none := by rw [Dict.get?_eq_none_iff, ← h1]; exact hp
      rw [if_pos h1, hn]
      simp only
      rw [hin]
      simp only [hkeys, EntityIds.at?_put]
      simp [h1]
    · rw [if_neg h1]
      cases Dict.get? l d' with
      | some es => rfl
      | none =>
        simp only
        rw [hin, if_neg (fun h => h1 h.1.symm), EntityIds.at?_put, if_neg h1]

theorem emptyIds_at (topo : Topology δ) (ht : topo.WF) (d : δ) (e : ℕ) (l : List ℕ) :
    (emptyIds topo).at? d e = some l ↔ l = [] ∧ ∃ v, HasEntity topo d e v := by
  rw [emptyIds, outer_empty _ (sortedItems_wf ht.1)]
  cases h : Dict.get? (sortedItems topo) d with
  | none =>
    simp only [EntityIds.at?, Dict.get?_nil, Option.bind_none, reduceCtorEq, false_iff]
    rintro ⟨_, v, es, h1, _⟩
    rw [Dict.get?_eq_none_iff] at h
    apply h
    exact ((sortedItems_perm topo).map Prod.fst).mem_iff.2
      (Dict.get?_isSome_iff.1 (by rw [h1]; rfl))
  | some es =>
    have hm := mem_sortedItems.1 (Dict.mem_of_get? h)
    have hg := Dict.get?_of_mem ht.1 hm
    have : (∃ v, HasEntity topo d e v) ↔ e ∈ Dict.keys es := by
      rw [← Dict.get?_isSome_iff, Option.isSome_iff_exists]
      constructor
      · rintro ⟨v, es', h1, h2⟩
        rw [hg, Option.some.injEq] at h1
        exact ⟨v, by rw [h1]; exact h2⟩
      · rintro ⟨v, hv⟩; exact ⟨v, es, hg, hv⟩
    rw [this]
    simp only
    split_ifs with hh
    · simp [hh, eq_comm]
    · simp [hh]

private theorem last_sorted (topo : Topology δ) (ht : topo.WF) (D : δ) (hD : IsCellDim topo D) :
    ∃ es, (sortedItems topo).getLast? = some (D, es) ∧ Dict.get? topo D = some es := by
  obtain ⟨⟨v, es, h1, h2⟩, _, hmax⟩ := hD
  have hm : (D, es) ∈ sortedItems topo := mem_sortedItems.2 (Dict.mem_of_get? h1)
  have hne : sortedItems topo ≠ [] := List.ne_nil_of_mem hm
  refine ⟨es, ?_, h1⟩
  rw [List.getLast?_eq_some_getLast hne]
  congr 1
  have hlast := List.getLast_mem hne
  have hle : ((sortedItems topo).getLast hne).1 ≤ D :=
    hmax _ (List.mem_map_of_mem (mem_sortedItems.1 hlast))
  have hge : D ≤ ((sortedItems topo).getLast hne).1 := by
    obtain ⟨i, hi, hie⟩ := List.mem_iff_getElem.1 hm
    rw [List.getLast_eq_getElem]
    have hs := sortedItems_pairwise topo
    rw [List.pairwise_iff_getElem] at hs
    by_cases hlt : i < (sortedItems topo).length - 1
    · have := hs i _ hi (by omega) hlt
      rw [hie] at this; exact this
    · have : i = (sortedItems topo).length - 1 := by omega
      subst this; rw [hie]
  have heq : ((sortedItems topo).getLast hne).1 = D := le_antisymm hle hge
  have hg := Dict.get?_of_mem ht.1 (mem_sortedItems.1 hlast : (((sortedItems topo).getLast hne).1,
    ((sortedItems topo).getLast hne).2) ∈ topo)
  rw [heq, h1, Option.some.injEq] at hg
  exact Prod.ext heq hg.symm

/-- C22 (`DiscontinuousElement`, `DiscontinuousLagrange`): the new `entity_dofs`. -/
theorem discontinuous_all_on_cell (topo : Topology δ) (ht : topo.WF) (D : δ) (hD : IsCellDim topo D)
    (n : ℕ) : ∃ ids, cellOnly topo n = some ids ∧ AllOnCell topo D ids n := by
  obtain ⟨es, hl, hg⟩ := last_sorted topo ht D hD
  have hat : ∀ d e, EntityIds.at? (Dict.put (emptyIds topo) D
      (Dict.put ((Dict.get? (emptyIds topo) D).getD []) 0 (List.range n))) d e =
      if d = D ∧ e = 0 then some (List.range n) else (emptyIds topo).at? d e := by
    intro d e
    rw [EntityIds.at?_put]
    by_cases h : D = d
    · subst h
      rw [if_pos rfl, Dict.get?_put]
      by_cases h0 : 0 = e
      · rw [if_pos h0, if_pos ⟨rfl, h0.symm⟩]
      · rw [if_neg h0, if_neg (fun h => h0 h.2.symm)]
        unfold EntityIds.at?
        cases Dict.get? (emptyIds topo) D <;> rfl
    · rw [if_neg h, if_neg (fun h' => h h'.1.symm)]
  refine ⟨_, by rw [cellOnly, hl], ?_, ?_, ?_⟩
  · intro d e
    rw [hat]
    by_cases h : d = D ∧ e = 0
    · rw [if_pos h, h.1, h.2]; simpa using hD.1
    · rw [if_neg h, Option.isSome_iff_exists]
      simp only [emptyIds_at topo ht]
      simp
  · rw [hat, if_pos ⟨rfl, rfl⟩]
  · intro d e l h hne
    rw [hat, if_neg (fun hh => hne (by rw [hh.1, hh.2])), emptyIds_at topo ht] at h
    exact h.1

/-- C22 (`P0`): one dof, on the cell. -/
theorem p0_all_on_cell (topo : Topology δ) (ht : topo.WF) (D : δ) (hD : IsCellDim topo D) :
    ∃ ids, p0Ids topo = some ids ∧ AllOnCell topo D ids 1 := by
  obtain ⟨es, hl, hg⟩ := last_sorted topo ht D hD
  have hat : ∀ d e, EntityIds.at? (Dict.put (emptyIds topo) D [(0, [0])]) d e =
      if d = D then (if e = 0 then some [0] else none) else (emptyIds topo).at? d e := by
    intro d e
    rw [EntityIds.at?_put]
    by_cases h : D = d
    · subst h
      rw [if_pos rfl, if_pos rfl, Dict.get?_cons, Dict.get?_nil]
      simp [eq_comm]
    · rw [if_neg h, if_neg (fun h' => h h'.symm)]
  refine ⟨_, by rw [p0Ids, hl], ?_, ?_, ?_⟩
  · intro d e
    rw [hat]
    by_cases h : d = D
    · subst h
      rw [if_pos rfl]
      by_cases h0 : e = 0
      · subst h0; rw [if_pos rfl]; simpa using hD.1
      · rw [if_neg h0]; simpa using fun v hv => h0 (hD.2.1 e v hv)
    · rw [if_neg h, Option.isSome_iff_exists]
      simp only [emptyIds_at topo ht]
      simp
  · rw [hat, if_pos rfl, if_pos rfl]; rfl
  · intro d e l h hne
    rw [hat] at h
    by_cases hd : d = D
    · rw [if_pos hd] at h
      by_cases h0 : e = 0
      · exact absurd (by rw [hd, h0]) hne
      · rw [if_neg h0] at h; exact absurd h (by simp)
    · rw [if_neg hd, emptyIds_at topo ht] at h
      exact h.1

/-- C22 (`QuadratureElement`): one dof per point, all on the cell. -/
theorem quad_element_all_on_cell (topo : Topology δ) (D : δ) (hD : IsCellDim topo D)
    (n : ℕ) : AllOnCell topo D (quadElementIds topo D n) n := by
  have hat : ∀ d e, EntityIds.at? (quadElementIds topo D n) d e =
      if d = D then (if e = 0 then some (List.range n) else none)
      else ((Dict.get? topo d).bind fun es => (Dict.get? es e).map fun _ => []) := by
    intro d e
    rw [quadElementIds, EntityIds.at?_put]
    by_cases h : D = d
    · subst h
      rw [if_pos rfl, if_pos rfl, Dict.get?_cons, Dict.get?_nil]
      simp [eq_comm]
    · rw [if_neg h, if_neg (fun h' => h h'.symm), EntityIds.at?,
        Dict.get?_map topo (fun _ es => es.map fun q => (q.1, ([] : List ℕ)))]
      cases Dict.get? topo d with
      | none => rfl
      | some es =>
        simp only [Option.map_some, Option.bind_some]
        rw [Dict.get?_map es (fun _ _ => ([] : List ℕ))]
  have hex : ∀ d e, (∃ v, HasEntity topo d e v) ↔
      ((Dict.get? topo d).bind fun es => (Dict.get? es e).map fun _ => ([] : List ℕ)).isSome := by
    intro d e
    unfold HasEntity
    cases Dict.get? topo d with
    | none => simp
    | some es => simp [Option.isSome_iff_exists]
  refine ⟨?_, ?_, ?_⟩
  · intro d e
    rw [hat]
    by_cases h : d = D
    · subst h
      rw [if_pos rfl]
      by_cases h0 : e = 0
      · subst h0; rw [if_pos rfl]; simpa using hD.1
      · rw [if_neg h0]; simpa using fun v hv => h0 (hD.2.1 e v hv)
    · rw [if_neg h, hex]
  · rw [hat, if_pos rfl, if_pos rfl]
  · intro d e l h hne
    rw [hat] at h
    by_cases hd : d = D
    · rw [if_pos hd] at h
      by_cases h0 : e = 0
      · exact absurd (by rw [hd, h0]) hne
      · rw [if_neg h0] at h; exact absurd h (by simp)
    · rw [if_neg hd, Option.bind_eq_some_iff] at h
      obtain ⟨es, _, h⟩ := h
      rw [Option.map_eq_some_iff] at h
      obtain ⟨_, _, rfl⟩ := h
      rfl

/-- C22 (`DiscontinuousLagrange`): the nodes are those of the continuous element, in the same order, all
on the cell. -/
theorem disc_lagrange_nodes {K : Type*} {V : Type} [Field K] [AddCommGroup V] [Module K V]
    (s : SimplexCell V) (ht : s.topo.WF) (D : ℕ) (hD : IsCellDim s.topo D) (k : ℕ)
    (nodes : List V) (ids : EntityIds ℕ) (h : lagrangeDual K s k = some (nodes, ids)) :
    ∃ ids', discLagrangeDual K s k = some (nodes, ids') ∧ AllOnCell s.topo D ids' nodes.length := by
  rw [lagrangeDual, Option.map_eq_some_iff] at h
  obtain ⟨r, hr, he⟩ := h
  rw [Prod.mk.injEq] at he
  obtain ⟨ids', h1, h2⟩ := discontinuous_all_on_cell s.topo ht D hD r.2.1.length
  refine ⟨ids', ?_, by rw [← he.1]; exact h2⟩
  unfold discLagrangeDual
  rw [hr]
  simp only [Option.bind_eq_bind, Option.bind_some, h1]
  rw [← he.1]; rfl

end

/-! ### The shipped simplices meet the hypotheses of C20-C22 -/

/-- Decidable form of `FullSimplex` and `IsCellDim`. -/
def fullB (sd : ℕ) (t : Topology ℕ) : Bool :=
  decide ((Dict.keys t).Nodup) && t.all (fun p => decide ((Dict.keys p.2).Nodup)) &&
  t.all (fun p => p.2.all fun q => decide (q.2.Nodup) && decide (q.2.length = p.1 + 1) &&
    q.2.all fun x => decide (x < sd + 1)) &&
  t.all (fun p => p.2.all fun q => decide (p.1 = 0 → q.2 = [q.1])) &&
  (List.range (sd + 1)).sublists.all (fun S => S.isEmpty ||
    t.any fun p => p.2.any fun q => S.all (q.2.contains ·) && q.2.all (S.contains ·)) &&
  t.all (fun p => p.2.all fun q => t.all fun p' => p'.2.all fun q' =>
    decide (q.2.toFinset = q'.2.toFinset → p.1 = p'.1 ∧ q.1 = q'.1))

theorem full_of_fullB {V : Type} (s : SimplexCell V) (hv : s.verts.length = s.sd + 1)
    (h : fullB s.sd s.topo = true) : FullSimplex s := by
  simp only [fullB, Bool.and_eq_true, decide_eq_true_eq, List.all_eq_true] at h
  obtain ⟨⟨⟨⟨⟨h1, h2⟩, h3⟩, h4⟩, h5⟩, h6⟩ := h
  have hwf : s.topo.WF := ⟨h1, h2⟩
  refine ⟨hwf, hv, ?_, ?_, ?_, ?_⟩
  · intro d e t ht
    obtain ⟨es, m1, m2⟩ := ht.mem
    have := h3 _ m1 _ m2
    exact ⟨this.1.1, this.1.2, this.2⟩
  · intro e t ht
    obtain ⟨es, m1, m2⟩ := ht.mem
    exact h4 _ m1 _ m2 rfl
  · intro S hne hS
    have h5' := h5 ((List.range (s.sd + 1)).filter (· ∈ S)) (List.mem_sublists.2 List.filter_sublist)
    have hmem : ∀ x, x ∈ (List.range (s.sd + 1)).filter (· ∈ S) ↔ x ∈ S := by
      intro x
      simp only [List.mem_filter, List.mem_range, decide_eq_true_eq, and_iff_right_iff_imp]
      exact fun hx => Finset.mem_range.1 (hS hx)
    obtain ⟨x0, hx0⟩ := hne
    have hne' : ((List.range (s.sd + 1)).filter (· ∈ S)).isEmpty = false := by
      rw [List.isEmpty_eq_false_iff]; exact List.ne_nil_of_mem ((hmem x0).2 hx0)
    simp only [hne', Bool.false_or, List.any_eq_true, Bool.and_eq_true, List.all_eq_true,
      List.contains_iff_mem] at h5'
    obtain ⟨p, m1, q, m2, hq1, hq2⟩ := h5'
    have hq : q.2.toFinset = S := by
      ext x
      rw [List.mem_toFinset]
      exact ⟨fun hx => (hmem x).1 (hq2 x hx), fun hx => hq1 x ((hmem x).2 hx)⟩
    exact ⟨p.1, q.1, q.2, ⟨p.2, Dict.get?_of_mem hwf.1 m1, Dict.get?_of_mem (hwf.2 _ m1) m2⟩, hq⟩
  · intro d e t d' e' t' ht ht' heq
    obtain ⟨es, m1, m2⟩ := ht.mem
    obtain ⟨es', m1', m2'⟩ := ht'.mem
    exact h6 _ m1 _ m2 _ m1' _ m2' heq

/-- A simplex whose vertices are `v0` and `v0 + c e_i` with `c ≠ 0` is nondegenerate. -/
theorem nondegenerate_of_axes {K : Type} [Field K] {d : ℕ} (s : SimplexCell (Fin d → K)) (hsd : s.sd = d)
    (v0 : Fin d → K) (c : K) (hc : c ≠ 0) (h0 : s.v 0 = v0)
    (h : ∀ i j : Fin d, s.v (i + 1) j = v0 j + if j = i then c else 0) : Nondegenerate K s := by
  obtain ⟨sd, verts, topo⟩ := s
  simp only at hsd
  subst hsd
  unfold Nondegenerate
  rw [affineIndependent_iff_linearIndependent_vsub K _ 0, Fintype.linearIndependent_iff]
  rintro g hg ⟨i, hi⟩
  obtain ⟨j, rfl⟩ := Fin.exists_succ_eq.2 hi
  have h' := congrFun hg j
  rw [Finset.sum_apply, Finset.sum_eq_single ⟨j.succ, hi⟩] at h'
  · simp only [Fin.val_succ, Fin.val_zero, h0, vsub_eq_sub, Pi.smul_apply, Pi.sub_apply, h j j,
      if_true, add_sub_cancel_left, smul_eq_mul, Pi.zero_apply, mul_eq_zero, hc, or_false] at h'
    exact h'
  · rintro ⟨k, hk⟩ _ hne
    obtain ⟨l, rfl⟩ := Fin.exists_succ_eq.2 hk
    have : j ≠ l := by rintro rfl; exact hne rfl
    simp [h0, h l j, this]
  · simp

/-- Decidable form of `IsCellDim`. -/
def cellDimB (d : ℕ) (t : Topology ℕ) : Bool :=
  decide (((Dict.get? t d).bind fun es => Dict.get? es 0).isSome) &&
  t.all (fun p => p.2.all fun q => decide (p.1 = d → q.1 = 0)) && t.all fun p => decide (p.1 ≤ d)

theorem cellDim_of_cellDimB (d : ℕ) (t : Topology ℕ) (h : cellDimB d t = true) : IsCellDim t d := by
  simp only [cellDimB, Bool.and_eq_true, decide_eq_true_eq, List.all_eq_true] at h
  obtain ⟨⟨h1, h2⟩, h3⟩ := h
  refine ⟨?_, ?_, ?_⟩
  · rw [Option.isSome_iff_exists] at h1
    obtain ⟨v, hv⟩ := h1
    rw [Option.bind_eq_some_iff] at hv
    obtain ⟨es, a, b⟩ := hv
    exact ⟨v, es, a, b⟩
  · intro e v hv
    obtain ⟨es, m1, m2⟩ := hv.mem
    exact h2 _ m1 _ m2 rfl
  · intro x hx
    obtain ⟨p, hp, rfl⟩ := List.mem_map.1 hx
    exact h3 p hp

/-- Specification: a proper simplex of dimension `d`, as the theorems on Lagrange elements need it. -/
def ProperSimplex (K : Type) [Field K] {d : ℕ} (s : SimplexCell (Fin d → K)) : Prop :=
  s.sd = d ∧ FullSimplex s ∧ Nondegenerate K s ∧ IsCellDim s.topo d

section shipped
variable {K : Type} [Field K] [LinearOrder K] [IsStrictOrderedRing K]

private theorem two_ne : (1 : K) - -1 ≠ 0 := by rw [sub_neg_eq_add]; norm_num

theorem proper_ufcInterval : ProperSimplex K ((ufcInterval : CellData K).toSimplex 1) := by
  have e : fullB 1 ((ufcInterval : CellData ℤ).toSimplex 1).topo = true := by decide +kernel
  have e' : cellDimB 1 ((ufcInterval : CellData ℤ).toSimplex 1).topo = true := by decide +kernel
  refine ⟨rfl, full_of_fullB _ rfl e, ?_, cellDim_of_cellDimB _ _ e'⟩
  refine nondegenerate_of_axes _ rfl _ 1 one_ne_zero rfl ?_
  intro i j; fin_cases i; fin_cases j; simp [SimplexCell.v, CellData.toSimplex, ufcInterval]

theorem proper_defaultLine : ProperSimplex K ((defaultLine : CellData K).toSimplex 1) := by
  have e : fullB 1 ((defaultLine : CellData ℤ).toSimplex 1).topo = true := by decide +kernel
  have e' : cellDimB 1 ((defaultLine : CellData ℤ).toSimplex 1).topo = true := by decide +kernel
  refine ⟨rfl, full_of_fullB _ rfl e, ?_, cellDim_of_cellDimB _ _ e'⟩
  refine nondegenerate_of_axes _ rfl _ _ two_ne rfl ?_
  intro i j; fin_cases i; fin_cases j; simp [SimplexCell.v, CellData.toSimplex, defaultLine]

theorem proper_ufcTriangle : ProperSimplex K ((ufcTriangle : CellData K).toSimplex 2) := by
  have e : fullB 2 ((ufcTriangle : CellData ℤ).toSimplex 2).topo = true := by decide +kernel
  have e' : cellDimB 2 ((ufcTriangle : CellData ℤ).toSimplex 2).topo = true := by decide +kernel
  refine ⟨rfl, full_of_fullB _ rfl e, ?_, cellDim_of_cellDimB _ _ e'⟩
  refine nondegenerate_of_axes _ rfl _ 1 one_ne_zero rfl ?_
  intro i j; fin_cases i <;> fin_cases j <;> simp [SimplexCell.v, CellData.toSimplex, ufcTriangle]

theorem proper_defaultTriangle : ProperSimplex K ((defaultTriangle : CellData K).toSimplex 2) := by
  have e : fullB 2 ((defaultTriangle : CellData ℤ).toSimplex 2).topo = true := by decide +kernel
  have e' : cellDimB 2 ((defaultTriangle : CellData ℤ).toSimplex 2).topo = true := by decide +kernel
  refine ⟨rfl, full_of_fullB _ rfl e, ?_, cellDim_of_cellDimB _ _ e'⟩
  refine nondegenerate_of_axes _ rfl _ _ two_ne rfl ?_
  intro i j; fin_cases i <;> fin_cases j <;> simp [SimplexCell.v, CellData.toSimplex, defaultTriangle]

theorem proper_intrepidTriangle : ProperSimplex K ((intrepidTriangle : CellData K).toSimplex 2) := by
  have e : fullB 2 ((intrepidTriangle : CellData ℤ).toSimplex 2).topo = true := by decide +kernel
  have e' : cellDimB 2 ((intrepidTriangle : CellData ℤ).toSimplex 2).topo = true := by decide +kernel
  refine ⟨rfl, full_of_fullB _ rfl e, ?_, cellDim_of_cellDimB _ _ e'⟩
  refine nondegenerate_of_axes _ rfl _ 1 one_ne_zero rfl ?_
  intro i j; fin_cases i <;> fin_cases j <;> simp [SimplexCell.v, CellData.toSimplex, intrepidTriangle]

theorem proper_ufcTetrahedron : ProperSimplex K ((ufcTetrahedron : CellData K).toSimplex 3) := by
  have e : fullB 3 ((ufcTetrahedron : CellData ℤ).toSimplex 3).topo = true := by decide +kernel
  have e' : cellDimB 3 ((ufcTetrahedron : CellData ℤ).toSimplex 3).topo = true := by decide +kernel
  refine ⟨rfl, full_of_fullB _ rfl e, ?_, cellDim_of_cellDimB _ _ e'⟩
  refine nondegenerate_of_axes _ rfl _ 1 one_ne_zero rfl ?_
  intro i j; fin_cases i <;> fin_cases j <;> simp [SimplexCell.v, CellData.toSimplex, ufcTetrahedron]

theorem proper_defaultTetrahedron : ProperSimplex K ((defaultTetrahedron : CellData K).toSimplex 3) := by
  have e : fullB 3 ((defaultTetrahedron : CellData ℤ).toSimplex 3).topo = true := by decide +kernel
  have e' : cellDimB 3 ((defaultTetrahedron : CellData ℤ).toSimplex 3).topo = true := by decide +kernel
  refine ⟨rfl, full_of_fullB _ rfl e, ?_, cellDim_of_cellDimB _ _ e'⟩
  refine nondegenerate_of_axes _ rfl _ _ two_ne rfl ?_
  intro i j
  fin_cases i <;> fin_cases j <;> simp [SimplexCell.v, CellData.toSimplex, defaultTetrahedron]

theorem proper_intrepidTetrahedron : ProperSimplex K ((intrepidTetrahedron : CellData K).toSimplex 3) := by
  have e : fullB 3 ((intrepidTetrahedron : CellData ℤ).toSimplex 3).topo = true := by decide +kernel
  have e' : cellDimB 3 ((intrepidTetrahedron : CellData ℤ).toSimplex 3).topo = true := by decide +kernel
  refine ⟨rfl, full_of_fullB _ rfl e, ?_, cellDim_of_cellDimB _ _ e'⟩
  refine nondegenerate_of_axes _ rfl _ 1 one_ne_zero rfl ?_
  intro i j
  fin_cases i <;> fin_cases j <;> simp [SimplexCell.v, CellData.toSimplex, intrepidTetrahedron]

end shipped

/-- C20, on every shipped tetrahedron (for instance): degree 3 has twenty nodes and is unisolvent. -/
example : ∃ nodes ids,
    lagrangeDual ℚ ((ufcTetrahedron : CellData ℚ).toSimplex 3) 3 = some (nodes, ids) ∧ nodes.length = 20 ∧
    ∀ p : MvPolynomial (Fin 3) ℚ, p.totalDegree ≤ 3 → (∀ x ∈ nodes, MvPolynomial.eval x p = 0) → p = 0 := by
  obtain ⟨h1, h2, h3, h4⟩ := proper_ufcTetrahedron (K := ℚ)
  obtain ⟨nodes, ids, h, hn⟩ := lagrange_num_nodes (K := ℚ) _ h2 h3 3 (by norm_num) (by norm_num [h1])
  refine ⟨nodes, ids, h, by rw [hn, h1]; rfl, fun p hp hz => ?_⟩
  exact lagrange_unisolvent _ h1 h2 h3 (by norm_num) 3 (by norm_num) nodes ids h p hp hz

/-- C21/C22: the hypotheses hold on the triangle. -/
example : ∃ nodes ids ids',
    lagrangeDual ℚ ((defaultTriangle : CellData ℚ).toSimplex 2) 4 = some (nodes, ids) ∧
    DofsPartition ids nodes.length ∧
    discLagrangeDual ℚ ((defaultTriangle : CellData ℚ).toSimplex 2) 4 = some (nodes, ids') ∧
    ids'.at? 2 0 = some (List.range 15) := by
  obtain ⟨h1, h2, h3, h4⟩ := proper_defaultTriangle (K := ℚ)
  obtain ⟨nodes, ids, h, hn⟩ := lagrange_num_nodes (K := ℚ) _ h2 h3 4 (by norm_num) (by norm_num [h1])
  obtain ⟨ids', g1, g2⟩ := disc_lagrange_nodes (K := ℚ) _ h2.wf 2 h4 4 nodes ids h
  refine ⟨nodes, ids, ids', h, (lagrange_dofs_partition _ h2 4 (by norm_num) nodes ids h).2.1, g1, ?_⟩
  rw [g2.2.1, hn, h1]; rfl

end FIAT
