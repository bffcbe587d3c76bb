import Verif.Model.Blocks
import Verif.Props.Dofs
namespace FIAT
section
variable {δ : Type} [LinearOrder δ]

theorem setIds_at (ids : EntityIds δ) (d : δ) (e : ℕ) (l : List ℕ) (d' : δ) (e' : ℕ) :
    (setIds ids d e l).at? d' e' = if d = d' ∧ e = e' then some l else ids.at? d' e' := by
  rw [setIds, EntityIds.at?_put]
  by_cases h : d = d'
  · subst h
    rw [if_pos rfl, Dict.get?_put]
    by_cases h2 : e = e'
    · rw [if_pos h2, if_pos ⟨rfl, h2⟩]
    · rw [if_neg h2, if_neg (fun h => h2 h.2), EntityIds.at?]
      cases Dict.get? ids d <;> rfl
  · rw [if_neg h, if_neg (fun h2 => h h2.1)]

/-- Number of dofs handed out before `x`. -/
def blockBefore (n : δ × ℕ → ℕ) (L : List (δ × ℕ)) (x : δ × ℕ) : ℕ :=
  ((L.takeWhile (· ≠ x)).map n).sum

theorem blockBefore_cons (n : δ × ℕ → ℕ) (a : δ × ℕ) (L : List (δ × ℕ)) (x : δ × ℕ) :
    blockBefore n (a :: L) x = if a = x then 0 else n a + blockBefore n L x := by
  unfold blockBefore
  rw [List.takeWhile_cons]
  by_cases h : a = x
  · simp [h]
  · rw [if_pos (by simpa using h), if_neg h]; simp

theorem blockLoop_spec (n : δ × ℕ → ℕ) (L : List (δ × ℕ)) (hL : L.Nodup) (st : ℕ × EntityIds δ) :
    (blockLoop n L st).1 = st.1 + (L.map n).sum ∧
    ∀ d e, (blockLoop n L st).2.at? d e =
      if (d, e) ∈ L then some (List.range' (st.1 + blockBefore n L (d, e)) (n (d, e)))
      else st.2.at? d e := by
  induction L generalizing st with
  | nil => exact ⟨by simp [blockLoop], fun d e => by simp [blockLoop]⟩
  | cons a L ih =>
    rw [List.nodup_cons] at hL
    obtain ⟨h1, h2⟩ := ih hL.2 (blockStep (n a) st a)
    have e : blockLoop n (a :: L) st = blockLoop n L (blockStep (n a) st a) := rfl
    rw [e]
    refine ⟨by rw [h1]; simp [blockStep, Nat.add_assoc], fun d e => ?_⟩
    rw [h2]
    by_cases hx : (d, e) ∈ L
    · have hne : a ≠ (d, e) := by rintro rfl; exact hL.1 hx
      rw [if_pos hx, if_pos (List.mem_cons_of_mem _ hx), blockBefore_cons, if_neg hne]
      simp [blockStep, Nat.add_assoc]
    · rw [if_neg hx, blockStep, setIds_at]
      by_cases ha : a = (d, e)
      · subst ha
        rw [if_pos ⟨rfl, rfl⟩, if_pos (by simp), blockBefore_cons, if_pos rfl, Nat.add_zero]
      · rw [if_neg (fun h => ha (Prod.ext h.1 h.2)), if_neg (by simp [Ne.symm ha, hx])]

/-- One more block keeps the numbering a partition. -/
theorem partition_step (ids : EntityIds δ) (cur n : ℕ) (d : δ) (e : ℕ) (h : DofsPartition ids cur)
    (he : ∀ l, ids.at? d e = some l → l = []) :
    DofsPartition (setIds ids d e (List.range' cur n)) (cur + n) := by
  refine ⟨fun d' e' l hl => ?_, fun i hi => ?_⟩
  · rw [setIds_at] at hl
    split_ifs at hl with hc
    · cases hl
      exact ⟨List.nodup_range' .., fun i hi => by rw [List.mem_range'_1] at hi; omega⟩
    · obtain ⟨h1, h2⟩ := h.1 d' e' l hl
      exact ⟨h1, fun i hi => by have := h2 i hi; omega⟩
  · by_cases hc : i < cur
    · obtain ⟨p, ⟨l, hl, hil⟩, hu⟩ := h.2 i hc
      have hne : ¬ (d = p.1 ∧ e = p.2) := by
        rintro ⟨rfl, rfl⟩
        rw [he l hl] at hil
        simp at hil
      refine ⟨p, ⟨l, by rw [setIds_at, if_neg hne]; exact hl, hil⟩, ?_⟩
      rintro q ⟨l', hl', hil'⟩
      rw [setIds_at] at hl'
      split_ifs at hl' with hq
      · cases hl'
        rw [List.mem_range'_1] at hil'
        omega
      · exact hu q ⟨l', hl', hil'⟩
    · refine ⟨(d, e), ⟨_, by rw [setIds_at, if_pos ⟨rfl, rfl⟩],
        List.mem_range'_1.2 (by omega)⟩, ?_⟩
      rintro q ⟨l', hl', hil'⟩
      rw [setIds_at] at hl'
      split_ifs at hl' with hq
      · exact Prod.ext hq.1.symm hq.2.symm
      · exact absurd ((h.1 _ _ _ hl').2 i hil') hc

theorem blockLoop_partition (n : δ × ℕ → ℕ) (L : List (δ × ℕ)) (hL : L.Nodup) (st : ℕ × EntityIds δ)
    (h : DofsPartition st.2 st.1) (he : ∀ x ∈ L, ∀ l, st.2.at? x.1 x.2 = some l → l = []) :
    DofsPartition (blockLoop n L st).2 (st.1 + (L.map n).sum) := by
  induction L generalizing st with
  | nil => simpa [blockLoop] using h
  | cons a L ih =>
    rw [List.nodup_cons] at hL
    have e : blockLoop n (a :: L) st = blockLoop n L (blockStep (n a) st a) := rfl
    rw [e]
    have := ih hL.2 (blockStep (n a) st a)
      (partition_step _ _ _ _ _ h (he a (by simp))) (fun x hx l hl => by
        rw [blockStep, setIds_at] at hl
        rw [if_neg (by rintro ⟨h1, h2⟩; exact hL.1 ((Prod.ext h1 h2 : a = x) ▸ hx))] at hl
        exact he x (List.mem_cons_of_mem _ hx) l hl)
    simpa [blockStep, Nat.add_assoc] using this

/-- A numbering in which every entity is empty. -/
theorem partition_zero (ids : EntityIds δ) (h : ∀ d e l, ids.at? d e = some l → l = []) :
    DofsPartition ids 0 :=
  ⟨fun d e l hl => by rw [h d e l hl]; simp, fun i hi => absurd hi (by omega)⟩

theorem blankIds_at (topo : Topology δ) (d : δ) (e : ℕ) (l : List ℕ) :
    (blankIds topo).at? d e = some l ↔ l = [] ∧ ∃ v, HasEntity topo d e v := by
  have h1 := Dict.get?_map topo (fun _ es => es.map fun q => (q.1, ([] : List ℕ))) d
  rw [EntityIds.at?, blankIds, h1]
  unfold HasEntity
  cases h : Dict.get? topo d with
  | none => simp
  | some es =>
    have h2 := Dict.get?_map es (fun _ _ => ([] : List ℕ)) e
    simp only [Option.map_some, Option.bind_some, h2, Option.some.injEq]
    cases h3 : Dict.get? es e with
    | none => simp [h3]
    | some v => simp [h3, eq_comm]

/-- The blocks of a loop that covers entities of the topology leave the set of entities unchanged. -/
theorem blockLoop_same (topo : Topology δ) (n : δ × ℕ → ℕ) (L : List (δ × ℕ)) (hL : L.Nodup)
    (st : ℕ × EntityIds δ) (h : SameEntities topo st.2) (hx : ∀ x ∈ L, ∃ v, HasEntity topo x.1 x.2 v) :
    SameEntities topo (blockLoop n L st).2 := by
  intro d e
  rw [(blockLoop_spec n L hL st).2]
  split_ifs with hc
  · simpa using hx _ hc
  · exact h d e

theorem blankIds_same (topo : Topology δ) : SameEntities topo (blankIds topo) := by
  intro d e
  rw [Option.isSome_iff_exists]
  simp [blankIds_at]

theorem flatMap_block {N : Type*} (P : δ × ℕ → List N) (L : List (δ × ℕ)) (x : δ × ℕ) (hx : x ∈ L) (j : ℕ)
    (hj : j < (P x).length) :
    (L.flatMap P)[blockBefore (fun x => (P x).length) L x + j]? = (P x)[j]? := by
  induction L with
  | nil => simp at hx
  | cons a L ih =>
    rw [blockBefore_cons, List.flatMap_cons]
    split_ifs with h
    · subst h; rw [List.getElem?_append_left (by omega), Nat.zero_add]
    · rw [List.getElem?_append_right (by omega), ← ih (by simpa [Ne.symm h] using hx)]
      congr 1; omega

end
end FIAT
