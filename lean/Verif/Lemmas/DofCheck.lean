/-
Sufficient, decidable conditions for `DofsPartition` and `SameEntities`, used for concrete examples.
-/
import Verif.Props.Dofs
import Mathlib.Data.List.Perm.Basic

namespace FIAT
section
variable {δ : Type} [LinearOrder δ]

/-- If the concatenation of all lists is a permutation of `range n`, the numbering is a partition. -/
theorem dofsPartition_of_perm (ids : EntityIds δ) (n : ℕ) (hwf : Topology.WF ids)
    (h : (ids.flatMap fun p => p.2.flatMap fun q => q.2).Perm (List.range n)) : DofsPartition ids n := by
  have hnd : (ids.flatMap fun p => p.2.flatMap fun q => q.2).Nodup := h.nodup_iff.2 List.nodup_range
  have hmem : ∀ i, i ∈ (ids.flatMap fun p => p.2.flatMap fun q => q.2) ↔ i < n := by
    intro i; rw [h.mem_iff, List.mem_range]
  have hat : ∀ d e l, ids.at? d e = some l ↔ ∃ m, (d, m) ∈ ids ∧ (e, l) ∈ m := by
    intro d e l
    unfold EntityIds.at?
    rw [Option.bind_eq_some_iff]
    constructor
    · rintro ⟨m, hm, hl⟩; exact ⟨m, Dict.mem_of_get? hm, Dict.mem_of_get? hl⟩
    · rintro ⟨m, hm, hl⟩
      exact ⟨m, Dict.get?_of_mem hwf.1 hm, Dict.get?_of_mem (hwf.2 _ hm) hl⟩
  rw [List.nodup_flatMap] at hnd
  have hnd1 := hnd.1
  have hdis := hnd.2
  refine ⟨fun d e l hl => ?_, fun i hi => ?_⟩
  · obtain ⟨m, hm, hl⟩ := (hat d e l).1 hl
    refine ⟨(List.nodup_flatMap.1 (hnd1 _ hm)).1 _ hl, fun i hi => (hmem i).1 ?_⟩
    exact List.mem_flatMap.2 ⟨_, hm, List.mem_flatMap.2 ⟨_, hl, hi⟩⟩
  · obtain ⟨p, hp, hq⟩ := List.mem_flatMap.1 ((hmem i).2 hi)
    obtain ⟨q, hq, hiq⟩ := List.mem_flatMap.1 hq
    refine ⟨(p.1, q.1), ⟨q.2, (hat _ _ _).2 ⟨p.2, hp, hq⟩, hiq⟩, ?_⟩
    rintro ⟨d, e⟩ ⟨l, hl, hil⟩
    obtain ⟨m, hm, hl⟩ := (hat _ _ _).1 hl
    have hsymm : Std.Symm (Function.onFun List.Disjoint
        (fun p : δ × Dict ℕ (List ℕ) => p.2.flatMap fun q => q.2)) := ⟨fun a b hab => List.Disjoint.symm hab⟩
    have h1 : p = (d, m) := by
      by_contra hne
      exact List.Pairwise.forall hdis hp hm hne
        (List.mem_flatMap.2 ⟨q, hq, hiq⟩) (List.mem_flatMap.2 ⟨_, hl, hil⟩)
    subst h1
    have h2 := (List.nodup_flatMap.1 (hnd1 _ hm)).2
    have hsymm' : Std.Symm (Function.onFun List.Disjoint
        (fun q : ℕ × List ℕ => q.2)) := ⟨fun a b hab => List.Disjoint.symm hab⟩
    have h3 : q = (e, l) := by
      by_contra hne
      exact List.Pairwise.forall h2 hq hl hne hiq hil
    subst h3
    rfl

/-- If both dictionaries have the same keys at both levels, they have the same entities. -/
theorem sameEntities_of_keys (topo : Topology δ) (ids : EntityIds δ)
    (h : (topo.map fun p => (p.1, Dict.keys p.2)) = ids.map fun p => (p.1, Dict.keys p.2)) :
    SameEntities topo ids := by
  intro d e
  have h1 := Dict.get?_map topo (fun _ (m : Dict ℕ (List ℕ)) => Dict.keys m) d
  have h2 := Dict.get?_map ids (fun _ (m : Dict ℕ (List ℕ)) => Dict.keys m) d
  rw [h, h2] at h1
  unfold EntityIds.at? HasEntity
  rcases ha : ids.get? d with _ | m <;> rcases hb : topo.get? d with _ | m' <;> rw [ha, hb] at h1
  · simp
  · simp at h1
  · simp at h1
  · simp only [Option.map_some, Option.some.injEq] at h1
    simp only [Option.bind_some, Option.some.injEq, exists_eq_left']
    rw [Dict.get?_isSome_iff, h1, ← Dict.get?_isSome_iff, Option.isSome_iff_exists]

end
end FIAT
