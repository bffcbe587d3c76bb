/-
`RestrictedElement` of a nodal element, as a Ciarlet element.
-/
import Verif.Model.Bubble
import Verif.Lemmas.AnyElement
import Verif.Props.Restricted

namespace FIAT
open MvPolynomial
section
variable {D : ℕ} {Cp : Type} [Fintype Cp]

theorem mapM_getElem {α : Type} (l : List α) (ks : List ℕ) (h : ∀ i ∈ ks, i < l.length) :
    ∃ l', ks.mapM (fun (i : ℕ) => l[i]?) = some l' ∧ l'.length = ks.length ∧ ∀ j : ℕ, l'[j]? = (ks[j]?).bind fun (i : ℕ) => l[i]? := by
  induction ks with
  | nil => exact ⟨[], rfl, rfl, fun j => rfl⟩
  | cons k ks ih =>
    obtain ⟨l', h1, h2, h3⟩ := ih fun i hi => h i (List.mem_cons_of_mem _ hi)
    have hk := List.getElem?_eq_getElem (h k List.mem_cons_self)
    refine ⟨l[k]'(h k List.mem_cons_self) :: l', ?_, by simp [h2], fun j => ?_⟩
    · rw [List.mapM_cons, h1, hk]; rfl
    · rcases j with _ | j
      · simp [hk]
      · simpa using h3 j

/-- The space of a restricted element: combinations of the old basis on which all dropped nodes are zero. -/
def RestrictedSpace {m : ℕ} (comp : Cp → List ℕ) (b : Fin m → Cp → MvPolynomial (Fin D) ℝ) (nodes : List (Functional ℝ (Fin D → ℝ)))
    (indices : List ℤ) (w : Cp → MvPolynomial (Fin D) ℝ) : Prop :=
  w ∈ Submodule.span ℝ (Set.range b) ∧
    ∀ (i : ℕ) l, nodes[i]? = some l → (i : ℤ) ∉ indices → l.onField (fieldC comp w) = 0

theorem restricted_element_nodal [DecidableEq Cp] (hD : 1 ≤ D) {N m : ℕ} (φ : Fin N → MvPolynomial (Fin D) ℝ)
    (comp : Cp → List ℕ) (hcomp : Function.Injective comp)
    (S : PolySet ℝ (Fin D → ℝ) N m Cp) (hsd : S.sd = D) (hb : BaseSpec φ S.base) (hd : DmatSpec φ S.dmats)
    (nodes : List (Functional ℝ (Fin D → ℝ))) (hlen : nodes.length = m) (hwf : ∀ l ∈ nodes, l.WF D)
    (hnod : ∀ (i : ℕ) l, nodes[i]? = some l → ∀ j : Fin m, l.onField (fieldC comp (S.member φ j)) = if i = (j : ℕ) then 1 else 0)
    {ids : EntityIds ℕ} (hids : Topology.WF ids) (hp : DofsPartition ids m) {indices : List ℤ} (hne : indices ≠ []) (hnd : indices.Nodup)
    (hr : ∀ i ∈ indices, 0 ≤ i ∧ i < (m : ℤ))
    (hord : (∃ l ∈ nodes, 0 < l.maxDerivOrder) → ∃ (i : ℕ) (l : Functional ℝ (Fin D → ℝ)), (i : ℤ) ∈ indices ∧ nodes[i]? = some l ∧ 0 < l.maxDerivOrder)
    (hord' : (∃ l ∈ nodes, 0 < l.maxDerivOrder) ∨ ∀ l ∈ nodes, l.deriv = []) :
    ∃ (el : PolySet ℝ (Fin D → ℝ) N indices.length Cp) (kept : List ℕ) (newNodes : List (Functional ℝ (Fin D → ℝ))) (ids' : EntityIds ℕ),
      restrict indices ids = some (kept, ids') ∧
      restrictedElement comp S nodes ids indices = some ⟨indices.length, el, newNodes, ids'⟩ ∧
      (newNodes.length = indices.length ∧ ∀ (j : ℕ), newNodes[j]? = (kept[j]?).bind fun (i : ℕ) => nodes[i]?) ∧
      IsNodalC comp (RestrictedSpace comp (S.member φ) nodes indices) newNodes el := by
  obtain ⟨⟨kept, ids'⟩, hk⟩ := Option.isSome_iff_exists.1 ((restrict_accepts_iff hids hp indices).2 ⟨hne, hnd, hr⟩)
  obtain ⟨k1, k2, k3, -, -, -⟩ := restrict_spec hids hp indices hk
  have hkr : ∀ i ∈ kept, i < nodes.length := by
    intro i hi
    have := (hr _ ((k2 i).1 hi)).2
    omega
  obtain ⟨nn, n1, n2, n3⟩ := mapM_getElem nodes kept hkr
  obtain ⟨items, i1, i2⟩ : ∃ items : List (Fin m), indices.mapM (fun (i : ℤ) => if h : 0 ≤ i ∧ i.toNat < m then
      some (⟨i.toNat, h.2⟩ : Fin m) else none) = some items ∧ items.map (fun i : Fin m => ((i : ℕ) : ℤ)) = indices := by
    clear hne hnd hord hk k1 k2 k3 hkr n1 n2 n3
    induction indices with
    | nil => exact ⟨[], rfl, rfl⟩
    | cons z zs ih =>
      obtain ⟨its, h1, h2⟩ := ih fun i hi => hr i (List.mem_cons_of_mem _ hi)
      obtain ⟨z1, z2⟩ := hr z List.mem_cons_self
      refine ⟨⟨z.toNat, by omega⟩ :: its, ?_, ?_⟩
      · rw [List.mapM_cons, h1, dif_pos ⟨z1, by omega⟩]; rfl
      · rw [List.map_cons, h2]
        congr 1
        simp only
        omega
  have hil : items.length = indices.length := by rw [← i2, List.length_map]
  have hmem : ∀ i : Fin m, ((i : ℕ) : ℤ) ∈ indices ↔ i ∈ items := by
    intro i
    rw [← i2, List.mem_map]
    constructor
    · rintro ⟨j, hj, e⟩
      have : j = i := Fin.ext (by exact_mod_cast e)
      exact this ▸ hj
    · exact fun h => ⟨i, h, rfl⟩
  have hnn : ∀ l, l ∈ nn ↔ ∃ i : ℕ, (i : ℤ) ∈ indices ∧ nodes[i]? = some l := by
    intro l
    rw [List.mem_iff_getElem?]
    constructor
    · rintro ⟨j, hj⟩
      rw [n3] at hj
      obtain ⟨i, hi, hi'⟩ := Option.bind_eq_some_iff.1 hj
      exact ⟨i, (k2 i).1 (List.mem_of_getElem? hi), hi'⟩
    · rintro ⟨i, hi, hi'⟩
      obtain ⟨j, hj⟩ := List.mem_iff_getElem?.1 ((k2 i).2 hi)
      exact ⟨j, by rw [n3, hj]; exact hi'⟩
  have hnodup : items.Nodup := by
    have : (items.map (fun i : Fin m => ((i : ℕ) : ℤ))).Nodup := i2 ▸ hnd
    exact List.Nodup.of_map _ this
  have hinj : Function.Injective items.get := List.nodup_iff_injective_get.1 hnodup
  have hli : LinearIndependent ℝ (S.member φ) := by
    rw [Fintype.linearIndependent_iff]
    intro a ha i
    obtain ⟨l, hl⟩ : ∃ l, nodes[(i : ℕ)]? = some l := ⟨_, List.getElem?_eq_getElem (by omega)⟩
    have h7 := onFieldC_comb comp l a (S.member φ)
    rw [ha] at h7
    have h8 : l.onField (fieldC comp (0 : Cp → MvPolynomial (Fin D) ℝ)) = 0 := by
      have := onFieldC_comb comp l (0 : Fin 0 → ℝ) (fun _ => 0)
      simpa using this
    rw [h8, Finset.sum_eq_single i] at h7
    · rw [hnod _ l hl, if_pos rfl, mul_one] at h7; exact h7.symm
    · intro b _ hb
      rw [hnod _ l hl, if_neg (fun h => hb (Fin.ext h.symm)), mul_zero]
    · simp
  have hrow : (S.takeRows items.get).member φ = S.member φ ∘ items.get := rfl
  -- the value of node `i` on a combination
  have hval : ∀ (a : Fin m → ℝ) (i : Fin m) l, nodes[(i : ℕ)]? = some l → l.onField (fieldC comp (∑ j, a j • S.member φ j)) = a i := by
    intro a i l hl
    rw [onFieldC_comb, Finset.sum_eq_single i]
    · rw [hnod _ l hl, if_pos rfl, mul_one]
    · intro b _ hb
      rw [hnod _ l hl, if_neg (fun h => hb (Fin.ext h.symm)), mul_zero]
    · simp
  have hspan : ∀ w, w ∈ Submodule.span ℝ (Set.range ((S.takeRows items.get).member φ)) ↔ RestrictedSpace comp (S.member φ) nodes indices w := by
    intro w
    rw [hrow]
    constructor
    · intro hw
      refine ⟨Submodule.span_mono (Set.range_comp_subset_range _ _) hw, fun i l hl hi => ?_⟩
      rw [Submodule.mem_span_range_iff_exists_fun ℝ] at hw
      obtain ⟨c, rfl⟩ := hw
      rw [onFieldC_comb]
      refine Finset.sum_eq_zero fun j _ => ?_
      rw [Function.comp_apply, hnod i l hl, if_neg, mul_zero]
      rintro rfl
      exact hi ((hmem _).2 (List.get_mem _ _))
    · rintro ⟨hw, hz⟩
      rw [Submodule.mem_span_range_iff_exists_fun ℝ] at hw
      obtain ⟨a, rfl⟩ := hw
      refine Submodule.sum_mem _ fun j _ => ?_
      by_cases hj : j ∈ items
      · obtain ⟨p, hp⟩ := List.mem_iff_get.1 hj
        refine Submodule.smul_mem _ _ (Submodule.subset_span ⟨p, ?_⟩)
        rw [Function.comp_apply, hp]
      · obtain ⟨l, hl⟩ : ∃ l, nodes[(j : ℕ)]? = some l := ⟨_, List.getElem?_eq_getElem (by omega)⟩
        have := hz j l hl (fun h => hj ((hmem _).1 h))
        rw [hval a j l hl] at this
        rw [this, zero_smul]
        exact Submodule.zero_mem _
  have hne' : 1 ≤ items.length := by
    rw [hil]
    exact List.length_pos_iff.2 hne
  obtain ⟨el, e1, -, -, -, -, -, e2⟩ := any_element_nodal hD φ comp hcomp (S.takeRows items.get) hsd hb hd _
    (by rw [hrow]; exact hli.comp _ hinj) hspan nn (by rw [n2, k3, hil]) hne'
    (fun l hl => by obtain ⟨i, -, h⟩ := (hnn l).1 hl; exact hwf l (List.mem_of_getElem? h))
    (by
      rcases hord' with h | h
      · obtain ⟨i, l, h1, h2, h3⟩ := hord h
        exact Or.inl ⟨l, (hnn l).2 ⟨i, h1, h2⟩, h3⟩
      · right
        intro l hl
        obtain ⟨i, -, h'⟩ := (hnn l).1 hl
        exact h l (List.mem_of_getElem? h'))
    (by
      rintro w ⟨hw, hz⟩ hz'
      rw [Submodule.mem_span_range_iff_exists_fun ℝ] at hw
      obtain ⟨a, rfl⟩ := hw
      refine Finset.sum_eq_zero fun j _ => ?_
      obtain ⟨l, hl⟩ : ∃ l, nodes[(j : ℕ)]? = some l := ⟨_, List.getElem?_eq_getElem (by omega)⟩
      rw [← hval a j l hl]
      by_cases hj : ((j : ℕ) : ℤ) ∈ indices
      · rw [hz' l ((hnn l).2 ⟨j, hj, hl⟩), zero_smul]
      · rw [hz j l hl hj, zero_smul])
  have hfin : ∀ (r : ℕ) (hr : items.length = r), ∃ el' : PolySet ℝ (Fin D → ℝ) N r Cp,
      (some ⟨items.length, el, nn, ids'⟩ : Option ((r : ℕ) × PolySet ℝ (Fin D → ℝ) N r Cp × List (Functional ℝ (Fin D → ℝ)) × EntityIds ℕ)) =
        some ⟨r, el', nn, ids'⟩ ∧ IsNodalC comp (RestrictedSpace comp (S.member φ) nodes indices) nn el' := by
    rintro r rfl
    exact ⟨el, rfl, e2⟩
  obtain ⟨el', f1, f2⟩ := hfin _ hil
  refine ⟨el', kept, nn, ids', hk, ?_, ⟨by rw [n2, k3], n3⟩, f2⟩
  rw [← f1]
  unfold restrictedElement
  simp only [i1, hk, n1, Option.bind_eq_bind, Option.bind_some]
  have e1' : ciarletElement (onExpTab N D S.base S.dmats) comp (S.takeRows items.get) nn = some el := e1
  rw [e1']
  rfl

end
end FIAT
