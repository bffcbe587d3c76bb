/-
C81: Bernstein elements are continuous across the cells of a mesh.
-/
import Verif.Props.Bernstein
import Verif.Props.ConformExample
import Verif.Lemmas.Commute

namespace FIAT
open MvPolynomial

/-! ### The order of the exponents -/

/-- `a` comes before `b` in `mis`: at the first place where they differ, `a` is larger. -/
def LexGT (a b : List ℕ) : Prop := ∃ i, (∀ j < i, a.getD j 0 = b.getD j 0) ∧ b.getD i 0 < a.getD i 0

theorem lexGT_asymm {a b : List ℕ} (h : LexGT a b) (h' : LexGT b a) : False := by
  obtain ⟨i, h1, h2⟩ := h
  obtain ⟨j, h3, h4⟩ := h'
  rcases lt_trichotomy i j with hij | rfl | hij
  · have := h3 i hij; omega
  · omega
  · have := h1 j hij; omega

instance : Std.Antisymm LexGT := ⟨fun _ _ h h' => (lexGT_asymm h h').elim⟩

theorem mis_lexGT (m n : ℕ) : (mis m n).Pairwise LexGT := by
  induction m using Nat.strong_induction_on generalizing n with
  | _ m ih =>
    match m with
    | 0 => simp only [mis]; split <;> simp
    | 1 => simp [mis]
    | m + 2 =>
      simp only [mis]
      split_ifs
      · simp
      · rw [List.pairwise_flatMap]
        refine ⟨fun i _ => ?_, ?_⟩
        · rw [List.pairwise_map]
          refine (ih (m + 1) (by omega) i).imp fun {a b} h => ?_
          obtain ⟨i, h1, h2⟩ := h
          refine ⟨i + 1, fun j hj => ?_, by simpa using h2⟩
          cases j with
          | zero => simp
          | succ j => simpa using h1 j (by omega)
        · rw [List.pairwise_iff_getElem]
          intro i j hi hj hij x hx y hy
          simp only [List.length_range] at hi hj
          simp only [List.getElem_range, List.mem_map] at hx hy
          obtain ⟨a, -, rfl⟩ := hx
          obtain ⟨b, -, rfl⟩ := hy
          exact ⟨0, fun j hj => absurd hj (Nat.not_lt_zero _), by simp; omega⟩

section
variable {D d : ℕ}

/-- The exponents `k` on the vertices `τ`, zero on the others. -/
def extendExp (D : ℕ) (τ : Fin (d + 1) → ℕ) (k : List ℕ) : List ℕ :=
  List.ofFn fun j : Fin (D + 1) => ∑ r : Fin (d + 1), if τ r = (j : ℕ) then k.getD r 0 else 0

theorem extendExp_at {τ : Fin (d + 1) → ℕ} (hτ : Function.Injective τ) (hlt : ∀ r, τ r < D + 1) (k : List ℕ) (r : Fin (d + 1)) :
    (extendExp D τ k).getD (τ r) 0 = k.getD r 0 := by
  unfold extendExp
  rw [List.getD_eq_getElem?_getD, List.getElem?_ofFn, dif_pos (hlt r), Option.getD_some,
    Finset.sum_eq_single r (fun x _ hx => if_neg fun h => hx (hτ h)) (by simp), if_pos rfl]

theorem extendExp_off {τ : Fin (d + 1) → ℕ} (k : List ℕ) {j : ℕ} (h : ∀ r, τ r ≠ j) : (extendExp D τ k).getD j 0 = 0 := by
  unfold extendExp
  rw [List.getD_eq_getElem?_getD, List.getElem?_ofFn]
  split_ifs with hj
  · rw [Option.getD_some]
    exact Finset.sum_eq_zero fun r _ => if_neg (h r)
  · rfl

theorem extendExp_length (τ : Fin (d + 1) → ℕ) (k : List ℕ) : (extendExp D τ k).length = D + 1 := List.length_ofFn

theorem list_ext_getD {a b : List ℕ} {n : ℕ} (ha : a.length = n) (hb : b.length = n) (h : ∀ j < n, a.getD j 0 = b.getD j 0) : a = b := by
  apply List.ext_getElem (by rw [ha, hb])
  intro i h1 h2
  have := h i (by omega)
  rwa [List.getD_eq_getElem _ _ h1, List.getD_eq_getElem _ _ h2] at this

theorem sum_getD {a : List ℕ} {n : ℕ} (ha : a.length = n) : a.sum = ∑ j : Fin n, a.getD j 0 := by
  subst ha
  rw [← List.sum_ofFn]
  congr 1
  apply List.ext_getElem
  · simp
  · intro i h1 h2
    simp [h1]

theorem extendExp_sum {τ : Fin (d + 1) → ℕ} (hlt : ∀ r, τ r < D + 1) {k : List ℕ} (hk : k.length = d + 1) :
    (extendExp D τ k).sum = k.sum := by
  rw [sum_getD hk]
  unfold extendExp
  rw [List.sum_ofFn, Finset.sum_comm]
  refine Finset.sum_congr rfl fun r _ => ?_
  rw [Finset.sum_eq_single (⟨τ r, hlt r⟩ : Fin (D + 1)) (fun x _ hx => if_neg fun h => hx (Fin.ext h.symm)) (by simp), if_pos rfl]

theorem extendExp_mem {τ : Fin (d + 1) → ℕ} (hlt : ∀ r, τ r < D + 1) {k : List ℕ} {n : ℕ} (hk : k ∈ mis (d + 1) n) :
    extendExp D τ k ∈ mis (D + 1) n := by
  obtain ⟨h1, h2⟩ := (mis_mem _ _ (by omega) k).1 hk
  exact (mis_mem _ _ (by omega) _).2 ⟨extendExp_length _ _, by rw [extendExp_sum hlt h1, h2]⟩

/-- The exponents on the vertices `τ`. -/
def restrictExp (τ : Fin (d + 1) → ℕ) (ks : List ℕ) : List ℕ := List.ofFn fun r => ks.getD (τ r) 0

theorem restrictExp_at (τ : Fin (d + 1) → ℕ) (ks : List ℕ) (r : Fin (d + 1)) : (restrictExp τ ks).getD r 0 = ks.getD (τ r) 0 := by
  unfold restrictExp
  rw [List.getD_eq_getElem?_getD, List.getElem?_ofFn, dif_pos r.2, Option.getD_some]

theorem extend_restrict {τ : Fin (d + 1) → ℕ} (hτ : Function.Injective τ) (hlt : ∀ r, τ r < D + 1) {ks : List ℕ} (hk : ks.length = D + 1)
    (h : ∀ j, ks.getD j 0 ≠ 0 → ∃ r, τ r = j) : extendExp D τ (restrictExp τ ks) = ks := by
  refine list_ext_getD (extendExp_length _ _) hk fun j _ => ?_
  by_cases hj : ∃ r, τ r = j
  · obtain ⟨r, rfl⟩ := hj
    rw [extendExp_at hτ hlt, restrictExp_at]
  · rw [extendExp_off _ fun r hr => hj ⟨r, hr⟩]
    by_contra h0
    exact hj (h j (Ne.symm h0))

theorem restrictExp_mem {τ : Fin (d + 1) → ℕ} (hτ : Function.Injective τ) (hlt : ∀ r, τ r < D + 1) {ks : List ℕ} {n : ℕ} (hk : ks ∈ mis (D + 1) n)
    (h : ∀ j, ks.getD j 0 ≠ 0 → ∃ r, τ r = j) : restrictExp τ ks ∈ mis (d + 1) n := by
  obtain ⟨h1, h2⟩ := (mis_mem _ _ (by omega) ks).1 hk
  have hl : (restrictExp τ ks).length = d + 1 := List.length_ofFn
  refine (mis_mem _ _ (by omega) _).2 ⟨hl, ?_⟩
  rw [← extendExp_sum hlt hl, extend_restrict hτ hlt h1 h, h2]

theorem extendExp_inj {τ : Fin (d + 1) → ℕ} (hτ : Function.Injective τ) (hlt : ∀ r, τ r < D + 1) {k k' : List ℕ} (hk : k.length = d + 1)
    (hk' : k'.length = d + 1) (h : extendExp D τ k = extendExp D τ k') : k = k' := by
  refine list_ext_getD hk hk' fun j hj => ?_
  have := congrArg (fun l : List ℕ => l.getD (τ ⟨j, hj⟩) 0) h
  simp only [extendExp_at hτ hlt] at this
  exact this

theorem extendExp_lexGT {τ : Fin (d + 1) → ℕ} (hτ : StrictMono τ) (hlt : ∀ r, τ r < D + 1) {k k' : List ℕ} (hk : k.length = d + 1)
    (h : LexGT k k') : LexGT (extendExp D τ k) (extendExp D τ k') := by
  obtain ⟨i, h1, h2⟩ := h
  have hi : i < d + 1 := by
    by_contra hc
    rw [List.getD_eq_default _ _ (by omega : k.length ≤ i)] at h2
    omega
  refine ⟨τ ⟨i, hi⟩, fun j hj => ?_, ?_⟩
  · by_cases hj' : ∃ r, τ r = j
    · obtain ⟨r, rfl⟩ := hj'
      rw [extendExp_at hτ.injective hlt, extendExp_at hτ.injective hlt]
      exact h1 r (hτ.lt_iff_lt.1 hj)
    · rw [extendExp_off _ fun r hr => hj' ⟨r, hr⟩, extendExp_off _ fun r hr => hj' ⟨r, hr⟩]
  · have e1 := extendExp_at (D := D) hτ.injective hlt k ⟨i, hi⟩
    have e2 := extendExp_at (D := D) hτ.injective hlt k' ⟨i, hi⟩
    rw [e1, e2]
    exact h2

/-! ### The dofs of an entity -/

private theorem step_sorted (inv : Dict (List ℕ) (ℕ × ℕ)) (L : List (List ℕ)) (k : ℕ) (ids ids' : EntityIds ℕ)
    (h : ∀ d e l, ids.at? d e = some l → l.Pairwise (· < ·) ∧ ∀ i ∈ l, i < k)
    (hf : (L.zipIdx k).foldlM (fun (ids : EntityIds ℕ) (p : List ℕ × ℕ) => do
      let de : ℕ × ℕ ← Dict.get? inv (nonzeroIdx p.1)
      let m : Dict ℕ (List ℕ) ← Dict.get? ids de.1
      let l : List ℕ ← Dict.get? m de.2
      some (Dict.put ids de.1 (Dict.put m de.2 (l ++ [p.2])))) ids = some ids') :
    ∀ d e l, ids'.at? d e = some l → l.Pairwise (· < ·) := by
  induction L generalizing k ids with
  | nil =>
    have : ids = ids' := by simpa using hf
    subst this
    exact fun d e l hl => (h d e l hl).1
  | cons x L ih =>
    rw [List.zipIdx_cons, List.foldlM_cons] at hf
    obtain ⟨ids1, h1, h2⟩ := Option.bind_eq_some_iff.1 hf
    obtain ⟨de, h3, h4⟩ := Option.bind_eq_some_iff.1 h1
    obtain ⟨m, h5, h6⟩ := Option.bind_eq_some_iff.1 h4
    obtain ⟨l0, h7, h8⟩ := Option.bind_eq_some_iff.1 h6
    rw [Option.some.injEq] at h8
    subst h8
    refine ih (k + 1) _ ?_ h2
    intro d e l hl
    rw [EntityIds.at?_put] at hl
    have hl0 : ids.at? de.1 de.2 = some l0 := by unfold EntityIds.at?; rw [h5]; exact h7
    split_ifs at hl with hd
    · rw [Dict.get?_put] at hl
      split_ifs at hl with he
      · rw [Option.some.injEq] at hl
        subst hl
        obtain ⟨a1, a2⟩ := h _ _ _ hl0
        refine ⟨List.pairwise_append.2 ⟨a1, by simp, fun i hi j hj => ?_⟩, fun i hi => ?_⟩
        · rw [List.mem_singleton] at hj
          subst hj
          exact a2 i hi
        · rcases List.mem_append.1 hi with hi | hi
          · exact (a2 i hi).trans (Nat.lt_succ_self k)
          · rw [List.mem_singleton] at hi
            subst hi
            exact Nat.lt_succ_self _
      · have : ids.at? d e = some l := by unfold EntityIds.at?; rw [← hd, h5]; exact hl
        exact ⟨(h _ _ _ this).1, fun i hi => ((h _ _ _ this).2 i hi).trans (Nat.lt_succ_self k)⟩
    · exact ⟨(h _ _ _ hl).1, fun i hi => ((h _ _ _ hl).2 i hi).trans (Nat.lt_succ_self k)⟩

/-- The dofs of an entity increase. -/
theorem bernstein_dual_increasing {topo : Topology ℕ} {dim degree : ℕ} {ids : EntityIds ℕ} {N : ℕ}
    (h : bernsteinDual topo dim degree = some (ids, N)) (d e : ℕ) (l : List ℕ) (hl : ids.at? d e = some l) : l.Pairwise (· < ·) := by
  unfold bernsteinDual at h
  obtain ⟨ids1, h1, h2⟩ := Option.bind_eq_some_iff.1 h
  rw [Option.some.injEq, Prod.mk.injEq] at h2
  obtain ⟨rfl, -⟩ := h2
  refine step_sorted (inverseTopology topo) (mis (dim + 1) degree) 0 _ _ ?_ h1 d e l hl
  intro d e l hl
  have : l = [] := by
    unfold EntityIds.at? at hl
    obtain ⟨m, hm, hl⟩ := Option.bind_eq_some_iff.1 hl
    rw [Dict.get?_map topo (fun _ m => m.map fun q => (q.1, ([] : List ℕ)))] at hm
    obtain ⟨m', -, rfl⟩ := Option.map_eq_some_iff.1 hm
    rw [Dict.get?_map m' (fun _ _ => ([] : List ℕ))] at hl
    obtain ⟨x, -, rfl⟩ := Option.map_eq_some_iff.1 hl
    rfl
  subst this
  simp

/-- The exponents of the dofs of an entity with vertices `τ`, in the order of `entity_dofs`. -/
theorem bernstein_entity_exponents {topo : Topology ℕ} (hsort : SortedSimplex topo D) {n : ℕ} (hn : 1 ≤ n) {ids : EntityIds ℕ} {N : ℕ}
    (hdual : bernsteinDual topo D n = some (ids, N)) {e : ℕ} {τ : Fin (d + 1) → ℕ} (hτ : StrictMono τ) (hlt : ∀ r, τ r < D + 1)
    (he : HasEntity topo d e (List.ofFn τ)) {l : List ℕ} (hl : ids.at? d e = some l) :
    l.map (fun i => (mis (D + 1) n).getD i []) =
      ((mis (d + 1) n).filter fun k => ∀ r : Fin (d + 1), k.getD r 0 ≠ 0).map (extendExp D τ) := by
  obtain ⟨ids1, h1, -, ⟨h2, -⟩, h3⟩ := bernstein_dual_spec topo D hsort n hn
  have h1' := h1
  rw [hdual, Option.some.injEq, Prod.mk.injEq] at h1'
  obtain ⟨rfl, rfl⟩ := h1'
  have hlen : (mis (D + 1) n).length = (n + D).choose D := by
    rw [mis_length _ _ (by omega)]; congr 1
  have hlN : ∀ i ∈ l, i < (mis (D + 1) n).length := fun i hi => by rw [hlen]; exact (h2 d e l hl).2 i hi
  have hsupp : ∀ ks : List ℕ, HasEntity topo d e ((List.range (D + 1)).filter fun j => ks.getD j 0 ≠ 0) ↔
      ∀ j < D + 1, ks.getD j 0 ≠ 0 ↔ ∃ r, τ r = j := by
    intro ks
    have hofn : List.ofFn τ = (List.range (D + 1)).filter fun j => ∃ r, τ r = j := by
      refine List.Perm.eq_of_pairwise' (r := (· < ·)) ?_ ?_ ?_
      · rw [List.pairwise_ofFn]; exact fun i j h => hτ h
      · exact List.pairwise_lt_range.filter _
      · refine (List.perm_ext_iff_of_nodup (List.nodup_ofFn.2 hτ.injective) (List.nodup_range.filter _)).2 fun j => ?_
        rw [List.mem_ofFn', Set.mem_range, List.mem_filter, List.mem_range, decide_eq_true_eq]
        exact ⟨fun h => ⟨by obtain ⟨r, rfl⟩ := h; exact hlt r, h⟩, fun h => h.2⟩
    constructor
    · intro h j hj
      have h' := hasEntity_unique h he
      rw [hofn] at h'
      have := congrArg (j ∈ ·) h'
      simp only [List.mem_filter, List.mem_range, hj, true_and, decide_eq_true_eq, eq_iff_iff] at this
      exact this
    · intro h
      have : (List.range (D + 1)).filter (fun j => decide (ks.getD j 0 ≠ 0)) = List.ofFn τ := by
        rw [hofn]
        refine List.filter_congr fun j hj => ?_
        rw [decide_eq_decide]
        exact h j (List.mem_range.1 hj)
      rw [this]
      exact he
  refine List.Perm.eq_of_pairwise' (r := LexGT) ?_ ?_ ?_
  · rw [List.pairwise_map]
    refine (bernstein_dual_increasing hdual d e l hl).imp_of_mem fun {i j} hi hj hij => ?_
    have := List.pairwise_iff_getElem.1 (mis_lexGT (D + 1) n) i j (hlN i hi) (hlN j hj) hij
    rwa [List.getD_eq_getElem _ _ (hlN i hi), List.getD_eq_getElem _ _ (hlN j hj)]
  · rw [List.pairwise_map]
    refine ((mis_lexGT (d + 1) n).filter _).imp_of_mem fun {a b} ha hb hab => ?_
    exact extendExp_lexGT hτ hlt ((mis_mem _ _ (by omega) a).1 (List.mem_filter.1 ha).1).1 hab
  · refine (List.perm_ext_iff_of_nodup ?_ ?_).2 fun ks => ?_
    · refine List.Nodup.map_on (fun i hi j hj h => ?_) (h2 d e l hl).1
      rw [List.getD_eq_getElem _ _ (hlN i hi), List.getD_eq_getElem _ _ (hlN j hj)] at h
      exact (List.Nodup.getElem_inj_iff (mis_nodup _ _)).1 h
    · refine List.Nodup.map_on (fun a ha b hb h => ?_) ((mis_nodup _ _).filter _)
      exact extendExp_inj hτ.injective hlt ((mis_mem _ _ (by omega) a).1 (List.mem_filter.1 ha).1).1
        ((mis_mem _ _ (by omega) b).1 (List.mem_filter.1 hb).1).1 h
    · simp only [List.mem_map, List.mem_filter, decide_eq_true_eq]
      constructor
      · rintro ⟨i, hi, rfl⟩
        rw [List.getD_eq_getElem _ _ (hlN i hi)]
        have hm := List.getElem_mem (hlN i hi)
        have hz := (hsupp _).1 ((h3 i _ (List.getElem?_eq_getElem (hlN i hi)) d e l hl).1 hi)
        have hlk := ((mis_mem _ _ (by omega) _).1 hm).1
        have hsub : ∀ j, ((mis (D + 1) n)[i]'(hlN i hi)).getD j 0 ≠ 0 → ∃ r, τ r = j := fun j hj => by
          by_cases hjD : j < D + 1
          · exact (hz j hjD).1 hj
          · rw [List.getD_eq_default _ _ (by omega)] at hj
            exact absurd rfl hj
        refine ⟨restrictExp τ _, ⟨restrictExp_mem hτ.injective hlt hm hsub, fun r => ?_⟩, extend_restrict hτ.injective hlt hlk hsub⟩
        rw [restrictExp_at]
        exact (hz _ (hlt r)).2 ⟨r, rfl⟩
      · rintro ⟨k, ⟨hk, hpos⟩, rfl⟩
        obtain ⟨i, hi, hik⟩ := List.getElem_of_mem (extendExp_mem hlt hk)
        refine ⟨i, (h3 i _ (List.getElem?_eq_getElem hi) d e l hl).2 ((hsupp _).2 fun j hj => ?_), by
          rw [List.getD_eq_getElem _ _ hi, hik]⟩
        rw [hik]
        constructor
        · intro h
          by_contra hc
          exact h (extendExp_off _ fun r hr => hc ⟨r, hr⟩)
        · rintro ⟨r, rfl⟩
          rw [extendExp_at hτ.injective hlt]
          exact hpos r


/-! ### Traces -/

/-- The function with coefficients `c`: `c i` multiplies the Bernstein polynomial number `i` of the element. -/
noncomputable def bernsteinFn (lam : Fin (D + 1) → MvPolynomial (Fin D) ℝ) (n : ℕ) (c : ℕ → ℝ) : MvPolynomial (Fin D) ℝ :=
  ∑ i ∈ Finset.range (mis (D + 1) n).length, C (c i) * bernsteinPoly lam ((mis (D + 1) n).getD i [])

/-- The coefficient at an exponent. -/
def coefAt (D n : ℕ) (c : ℕ → ℝ) (ks : List ℕ) : ℝ := c ((mis (D + 1) n).idxOf ks)

theorem coefAt_getD {n : ℕ} (c : ℕ → ℝ) {i : ℕ} (hi : i < (mis (D + 1) n).length) :
    coefAt D n c ((mis (D + 1) n).getD i []) = c i := by
  unfold coefAt
  rw [List.getD_eq_getElem _ _ hi, (mis_nodup _ _).idxOf_getElem]

theorem bernsteinFn_eval (lam : Fin (D + 1) → MvPolynomial (Fin D) ℝ) (n : ℕ) (c : ℕ → ℝ) (x : Fin D → ℝ) :
    eval x (bernsteinFn lam n c) = ∑ ks ∈ (mis (D + 1) n).toFinset, coefAt D n c ks * eval x (bernsteinPoly lam ks) := by
  unfold bernsteinFn
  rw [map_sum]
  refine Finset.sum_bij (fun i _ => (mis (D + 1) n).getD i []) (fun i hi => ?_) (fun i hi j hj h => ?_) (fun ks hks => ?_) fun i hi => ?_
  · rw [List.getD_eq_getElem _ _ (Finset.mem_range.1 hi)]
    exact List.mem_toFinset.2 (List.getElem_mem _)
  · rw [List.getD_eq_getElem _ _ (Finset.mem_range.1 hi), List.getD_eq_getElem _ _ (Finset.mem_range.1 hj)] at h
    exact (List.Nodup.getElem_inj_iff (mis_nodup _ _)).1 h
  · obtain ⟨i, hi, rfl⟩ := List.getElem_of_mem (List.mem_toFinset.1 hks)
    exact ⟨i, Finset.mem_range.2 hi, List.getD_eq_getElem _ _ hi⟩
  · rw [map_mul, eval_C, coefAt_getD c (Finset.mem_range.1 hi)]

/-- The Bernstein polynomials on the reference entity, as functions of the barycentric coordinates. -/
noncomputable def refBern (k : List ℕ) (z : Fin (d + 1) → ℝ) : ℝ :=
  (k.sum.factorial : ℝ) / (∏ r : Fin (d + 1), ((k.getD (r : ℕ) 0).factorial : ℝ)) * ∏ r : Fin (d + 1), z r ^ k.getD (r : ℕ) 0

theorem eval_bary {v : Fin (D + 1) → Fin D → ℝ} {lam : Fin (D + 1) → MvPolynomial (Fin D) ℝ} (h : BaryCoords v lam)
    (τ : Fin (d + 1) → Fin (D + 1)) (y : Fin d → ℝ) (i : Fin (D + 1)) :
    eval (entMap (fun r => v (τ r)) y) (lam i) = ∑ r, if i = τ r then ufcBary y r else 0 := by
  obtain ⟨⟨a, b, hab⟩, hv⟩ := h i
  have h1 : ∀ x : Fin D → ℝ, eval x (lam i) = ∑ j, a j * x j + b := fun x => by rw [hab]; simp
  have h2 : ∀ r, (if i = τ r then ufcBary y r else 0) = ufcBary y r * (∑ j, a j * v (τ r) j + b) := fun r => by
    rw [← h1, hv]
    split_ifs <;> simp
  rw [Finset.sum_congr rfl fun r _ => h2 r]
  simp only [mul_add, Finset.sum_add_distrib]
  rw [← Finset.sum_mul, ufcBary_sum, one_mul, h1, ufc_entMap_bary]
  congr 1
  simp only [Finset.sum_apply, Pi.smul_apply, smul_eq_mul, Finset.mul_sum]
  rw [Finset.sum_comm]
  exact Finset.sum_congr rfl fun r _ => Finset.sum_congr rfl fun j _ => by ring

theorem trace_eval {v : ℕ → Fin D → ℝ} {lam : Fin (D + 1) → MvPolynomial (Fin D) ℝ} (h : BaryCoords (fun j : Fin (D + 1) => v j) lam)
    {τ : Fin (d + 1) → ℕ} (hτ : Function.Injective τ) (hlt : ∀ r, τ r < D + 1) (n : ℕ) (c : ℕ → ℝ) (y : Fin d → ℝ) :
    eval (entMap (fun r => v (τ r)) y) (bernsteinFn lam n c) =
      ∑ k ∈ (mis (d + 1) n).toFinset, coefAt D n c (extendExp D τ k) * refBern k (ufcBary y) := by
  classical
  let σ : Fin (d + 1) → Fin (D + 1) := fun r => ⟨τ r, hlt r⟩
  have hσ : Function.Injective σ := fun a b hab => hτ (congrArg Fin.val hab)
  have hb : ∀ i, eval (entMap (fun r => v (τ r)) y) (lam i) = ∑ r, if i = σ r then ufcBary y r else 0 := fun i =>
    eval_bary (v := fun j : Fin (D + 1) => v j) h σ y i
  have hon : ∀ r, eval (entMap (fun r => v (τ r)) y) (lam (σ r)) = ufcBary y r := fun r => by
    rw [hb, Finset.sum_eq_single r (fun x _ hx => if_neg fun h => hx (hσ h).symm) (by simp), if_pos rfl]
  have hoff : ∀ i, (∀ r, σ r ≠ i) → eval (entMap (fun r => v (τ r)) y) (lam i) = 0 := fun i hi => by
    rw [hb]
    exact Finset.sum_eq_zero fun r _ => if_neg fun h => hi r h.symm
  rw [bernsteinFn_eval]
  have hsub : ((mis (d + 1) n).toFinset.image (extendExp D τ)) ⊆ (mis (D + 1) n).toFinset := by
    intro ks hks
    obtain ⟨k, hk, rfl⟩ := Finset.mem_image.1 hks
    exact List.mem_toFinset.2 (extendExp_mem hlt (List.mem_toFinset.1 hk))
  rw [← Finset.sum_subset hsub, Finset.sum_image]
  · refine Finset.sum_congr rfl fun k hk => ?_
    have hkl := ((mis_mem _ _ (by omega) k).1 (List.mem_toFinset.1 hk)).1
    congr 1
    unfold bernsteinPoly refBern
    rw [map_mul, eval_C, map_prod, extendExp_sum hlt hkl]
    congr 1
    · congr 1
      refine (Fintype.prod_of_injective σ hσ _ _ (fun i hi => ?_) fun r => ?_).symm
      · rw [extendExp_off k fun r hr => hi ⟨r, Fin.ext hr⟩]
        simp
      · rw [show ((σ r : Fin (D + 1)) : ℕ) = τ r from rfl, extendExp_at hτ hlt]
    · refine (Fintype.prod_of_injective σ hσ _ _ (fun i hi => ?_) fun r => ?_).symm
      · rw [extendExp_off k fun r hr => hi ⟨r, Fin.ext hr⟩, pow_zero, map_one]
      · rw [map_pow, hon, show ((σ r : Fin (D + 1)) : ℕ) = τ r from rfl, extendExp_at hτ hlt]
  · intro a ha b hb hab
    exact extendExp_inj hτ hlt ((mis_mem _ _ (by omega) a).1 (List.mem_toFinset.1 ha)).1
      ((mis_mem _ _ (by omega) b).1 (List.mem_toFinset.1 hb)).1 hab
  · intro ks hks hne
    have hm := List.mem_toFinset.1 hks
    have : ∃ j, ks.getD j 0 ≠ 0 ∧ ∀ r, τ r ≠ j := by
      by_contra hc
      push Not at hc
      exact hne (Finset.mem_image.2 ⟨restrictExp τ ks, List.mem_toFinset.2 (restrictExp_mem hτ hlt hm hc),
        extend_restrict hτ hlt ((mis_mem _ _ (by omega) ks).1 hm).1 hc⟩)
    obtain ⟨j, hj, hr⟩ := this
    have hjD : j < D + 1 := by
      by_contra hc
      rw [List.getD_eq_default _ _ (by rw [((mis_mem _ _ (by omega) ks).1 hm).1]; omega)] at hj
      exact hj rfl
    unfold bernsteinPoly
    have h0 : ∏ i : Fin (D + 1), eval (entMap (fun r => v (τ r)) y) (lam i ^ ks.getD (i : ℕ) 0) = 0 :=
      Finset.prod_eq_zero (Finset.mem_univ ⟨j, hjD⟩) (by rw [map_pow, hoff _ fun r h => hr r (congrArg Fin.val h), zero_pow hj])
    rw [map_mul, map_prod, h0, mul_zero, mul_zero]

/-- Bernstein polynomials on the reference entity are independent. -/
theorem refBern_independent {n : ℕ} (a : List ℕ → ℝ)
    (h : ∀ y : Fin d → ℝ, ∑ k ∈ (mis (d + 1) n).toFinset, a k * refBern k (ufcBary y) = 0) : ∀ k ∈ mis (d + 1) n, a k = 0 := by
  classical
  let ex : List ℕ → (Fin (d + 1) →₀ ℕ) := fun k => Finsupp.equivFunOnFinite.symm fun r => k.getD r 0
  let w : List ℕ → ℝ := fun k => (k.sum.factorial : ℝ) / ∏ r : Fin (d + 1), ((k.getD (r : ℕ) 0).factorial : ℝ)
  have hw : ∀ k, w k ≠ 0 := fun k => div_ne_zero (by exact_mod_cast Nat.factorial_ne_zero _)
    (Finset.prod_ne_zero_iff.2 fun r _ => by exact_mod_cast Nat.factorial_ne_zero _)
  let Q : MvPolynomial (Fin (d + 1)) ℝ := ∑ k ∈ (mis (d + 1) n).toFinset, monomial (ex k) (a k * w k)
  have hQ : ∀ z, eval z Q = ∑ k ∈ (mis (d + 1) n).toFinset, a k * refBern k z := fun z => by
    rw [map_sum]
    refine Finset.sum_congr rfl fun k _ => ?_
    rw [eval_monomial, mul_assoc, Finsupp.prod_fintype _ _ (fun _ => pow_zero _)]
    rfl
  have hmul : Q * ∑ r, X r = 0 := by
    refine MvPolynomial.funext fun z => ?_
    have hX : eval z (∑ r, X r : MvPolynomial (Fin (d + 1)) ℝ) = ∑ r, z r := by simp
    rw [map_mul, map_zero, hX]
    by_cases hS : ∑ r, z r = 0
    · rw [hS, mul_zero]
    · have hz : z = fun r => (∑ r, z r) * ufcBary (fun j : Fin d => z j.succ / ∑ r, z r) r := by
        funext r
        refine Fin.cases ?_ (fun j => ?_) r
        · show z 0 = (∑ r, z r) * (1 - ∑ j : Fin d, z j.succ / ∑ r, z r)
          rw [← Finset.sum_div, mul_sub, mul_div_cancel₀ _ hS, Fin.sum_univ_succ]
          ring
        · show z j.succ = (∑ r, z r) * (z j.succ / ∑ r, z r)
          rw [mul_div_cancel₀ _ hS]
      have : eval z Q = (∑ r, z r) ^ n * ∑ k ∈ (mis (d + 1) n).toFinset, a k * refBern k (ufcBary fun j : Fin d => z j.succ / ∑ r, z r) := by
        rw [hQ, Finset.mul_sum]
        refine Finset.sum_congr rfl fun k hk => ?_
        obtain ⟨k1, k2⟩ := (mis_mem _ _ (by omega) k).1 (List.mem_toFinset.1 hk)
        have hp : ∏ r : Fin (d + 1), z r ^ k.getD (r : ℕ) 0 = (∑ r, z r) ^ n *
            ∏ r : Fin (d + 1), ufcBary (fun j : Fin d => z j.succ / ∑ r, z r) r ^ k.getD (r : ℕ) 0 := by
          rw [← k2, sum_getD k1, ← Finset.prod_pow_eq_pow_sum, ← Finset.prod_mul_distrib]
          refine Finset.prod_congr rfl fun r _ => ?_
          rw [← mul_pow]
          exact congrArg (· ^ _) (congrFun hz r)
        unfold refBern
        rw [hp]
        ring
      rw [this, h, mul_zero, zero_mul]
  have hsum : (∑ r, X r : MvPolynomial (Fin (d + 1)) ℝ) ≠ 0 := by
    intro h0
    have := congrArg (eval (Pi.single 0 1 : Fin (d + 1) → ℝ)) h0
    rw [map_sum, map_zero] at this
    simp [Pi.single_apply] at this
  have hQ0 : Q = 0 := (mul_eq_zero.1 hmul).resolve_right hsum
  intro k hk
  have hc : coeff (ex k) Q = a k * w k := by
    rw [coeff_sum, Finset.sum_eq_single k (fun k' hk' hne => ?_) (fun hc => absurd (List.mem_toFinset.2 hk) hc), coeff_monomial, if_pos rfl]
    rw [coeff_monomial, if_neg fun he => hne ?_]
    refine list_ext_getD ((mis_mem _ _ (by omega) _).1 (List.mem_toFinset.1 hk')).1 ((mis_mem _ _ (by omega) k).1 hk).1 fun j hj => ?_
    exact DFunLike.congr_fun he (⟨j, hj⟩ : Fin (d + 1))
  rw [hQ0, coeff_zero] at hc
  exact (mul_eq_zero.1 hc.symm).resolve_right (hw k)


/-! ### Shared entities -/

theorem extendExp_comp {e : ℕ} {τ : Fin (d + 1) → ℕ} (hτ : Function.Injective τ) (hlt : ∀ r, τ r < D + 1) {ρ : Fin (e + 1) → Fin (d + 1)}
    (hρ : Function.Injective ρ) (k : List ℕ) :
    extendExp D τ (extendExp d (fun j => (ρ j : ℕ)) k) = extendExp D (fun j => τ (ρ j)) k := by
  have hρ' : Function.Injective fun j => (ρ j : ℕ) := fun a b h => hρ (Fin.ext h)
  have hτρ : Function.Injective fun j => τ (ρ j) := fun a b h => hρ (hτ h)
  refine list_ext_getD (extendExp_length _ _) (extendExp_length _ _) fun j hj => ?_
  by_cases h1 : ∃ r, τ r = j
  · obtain ⟨r, rfl⟩ := h1
    rw [extendExp_at hτ hlt]
    by_cases h2 : ∃ i, ρ i = r
    · obtain ⟨i, rfl⟩ := h2
      have e1 := extendExp_at (D := d) hρ' (fun r => (ρ r).2) k i
      have e2 := extendExp_at (D := D) hτρ (fun r => hlt _) k i
      rw [e1, e2]
    · rw [extendExp_off (τ := fun j => (ρ j : ℕ)) k fun i hi => h2 ⟨i, Fin.ext hi⟩,
        extendExp_off (τ := fun j => τ (ρ j)) k fun i hi => h2 ⟨i, hτ hi⟩]
  · rw [extendExp_off _ fun r hr => h1 ⟨r, hr⟩, extendExp_off (τ := fun j => τ (ρ j)) k fun i hi => h1 ⟨_, hi⟩]

theorem sorted_tuple {topo : Topology ℕ} (hsort : SortedSimplex topo D) {τ : Fin (d + 1) → ℕ} (hτ : StrictMono τ) (hlt : ∀ r, τ r < D + 1) :
    ∃ d1 e1, HasEntity topo d1 e1 (List.ofFn τ) := by
  have hofn : List.ofFn τ = (List.range (D + 1)).filter fun j => ∃ r, τ r = j := by
    refine List.Perm.eq_of_pairwise' (r := (· < ·)) ?_ ?_ ?_
    · rw [List.pairwise_ofFn]; exact fun i j h => hτ h
    · exact List.pairwise_lt_range.filter _
    · refine (List.perm_ext_iff_of_nodup (List.nodup_ofFn.2 hτ.injective) (List.nodup_range.filter _)).2 fun j => ?_
      rw [List.mem_ofFn', Set.mem_range, List.mem_filter, List.mem_range, decide_eq_true_eq]
      exact ⟨fun h => ⟨by obtain ⟨r, rfl⟩ := h; exact hlt r, h⟩, fun h => h.2⟩
  rw [hofn]
  exact hsort.2.1 _ ⟨τ 0, by have := hlt 0; omega, by simp⟩

variable {X : ℕ → Fin D → ℝ} {s s' : SimplexCell (Fin D → ℝ)} {A A' : Matrix (Fin D) (Fin D) ℝ} {b b' : Fin D → ℝ} {g g' : ℕ → ℕ}

theorem mesh_strictMono (hsort : SortedSimplex s.topo D) (hm : InMesh X s A b g) : ∀ a c, a < D + 1 → c < D + 1 → (a < c ↔ g a < g c) := by
  have hofn : (List.range (D + 1)).filter (fun _ => true) = List.range (D + 1) := List.filter_true _
  obtain ⟨d1, e1, h1⟩ := hsort.2.1 (fun _ => true) ⟨0, by omega, rfl⟩
  rw [hofn] at h1
  have h2 := hm.ordered _ _ _ h1
  rw [List.pairwise_map] at h2
  have h3 : ∀ a c, a < c → c < D + 1 → g a < g c := fun a c hac hc => by
    have := List.pairwise_iff_getElem.1 h2 a c (by simpa using hac.trans hc) (by simpa using hc) hac
    simpa using this
  intro a c ha hc
  refine ⟨fun h => h3 a c h hc, fun h => ?_⟩
  rcases lt_trichotomy a c with h' | rfl | h'
  · exact h'
  · omega
  · have := h3 c a h' ha
    omega

theorem mesh_tuple_strictMono (hs : ProperSimplex ℝ s) (hsort : SortedSimplex s.topo D) (hm : InMesh X s A b g) {e : ℕ} {τ : Fin (d + 1) → ℕ}
    (h : HasEntity s.topo d e (List.ofFn τ)) (hlt : ∀ r, τ r < D + 1) : StrictMono τ := by
  have h1 := hm.ordered _ _ _ h
  rw [List.map_ofFn, List.pairwise_ofFn] at h1
  intro i j hij
  exact (mesh_strictMono hsort hm _ _ (hlt i) (hlt j)).2 (h1 hij)

/-- The dofs of two entities with vertices `σ`, `σ'` agree. -/
theorem bernstein_dofs_iff {topo topo' : Topology ℕ} (hsort : SortedSimplex topo D) (hsort' : SortedSimplex topo' D) {n : ℕ} (hn : 1 ≤ n)
    {ids ids' : EntityIds ℕ} {N N' : ℕ} (hdual : bernsteinDual topo D n = some (ids, N)) (hdual' : bernsteinDual topo' D n = some (ids', N'))
    {e e' : ℕ} {σ σ' : Fin (d + 1) → ℕ} (hσ : StrictMono σ) (hlt : ∀ r, σ r < D + 1) (he : HasEntity topo d e (List.ofFn σ))
    (hσ' : StrictMono σ') (hlt' : ∀ r, σ' r < D + 1) (he' : HasEntity topo' d e' (List.ofFn σ')) {l l' : List ℕ}
    (hl : ids.at? d e = some l) (hl' : ids'.at? d e' = some l') (c c' : ℕ → ℝ) :
    l.map c = l'.map c' ↔ ∀ k ∈ mis (d + 1) n, (∀ r : Fin (d + 1), k.getD r 0 ≠ 0) →
      coefAt D n c (extendExp D σ k) = coefAt D n c' (extendExp D σ' k) := by
  have key : ∀ {topo : Topology ℕ} (_ : SortedSimplex topo D) {ids : EntityIds ℕ} {N : ℕ} (_ : bernsteinDual topo D n = some (ids, N))
      {e : ℕ} {σ : Fin (d + 1) → ℕ} (_ : StrictMono σ) (_ : ∀ r, σ r < D + 1) (_ : HasEntity topo d e (List.ofFn σ)) {l : List ℕ}
      (_ : ids.at? d e = some l) (c : ℕ → ℝ), l.map c =
        ((mis (d + 1) n).filter fun k => ∀ r : Fin (d + 1), k.getD r 0 ≠ 0).map fun k => coefAt D n c (extendExp D σ k) := by
    intro topo hsort ids N hdual e σ hσ hlt he l hl c
    have h1 := bernstein_entity_exponents hsort hn hdual hσ hlt he hl
    obtain ⟨ids1, h2, -, ⟨h3, -⟩, -⟩ := bernstein_dual_spec topo D hsort n hn
    rw [hdual, Option.some.injEq, Prod.mk.injEq] at h2
    obtain ⟨rfl, rfl⟩ := h2
    have hlen : (mis (D + 1) n).length = (n + D).choose D := by
      rw [mis_length _ _ (by omega)]; congr 1
    have h4 := congrArg (List.map (coefAt D n c)) h1
    rw [List.map_map, List.map_map] at h4
    rw [← show ((fun k => coefAt D n c (extendExp D σ k)) = coefAt D n c ∘ extendExp D σ) from rfl] at h4
    rw [← h4]
    refine List.map_congr_left fun i hi => ?_
    exact (coefAt_getD c (by rw [hlen]; exact (h3 _ _ _ hl).2 i hi)).symm
  rw [key hsort hdual hσ hlt he hl, key hsort' hdual' hσ' hlt' he' hl', List.map_inj_left]
  simp only [List.mem_filter, decide_eq_true_eq, and_imp]

/-- The traces on a shared entity agree exactly when the coefficients of the Bernstein polynomials on it do. -/
theorem bernstein_trace_iff (hs : ProperSimplex ℝ s) (hm : InMesh X s A b g) (hm' : InMesh X s' A' b' g')
    {lam lam' : Fin (D + 1) → MvPolynomial (Fin D) ℝ} (hb : BaryCoords (fun j : Fin (D + 1) => s.v j) lam)
    (hb' : BaryCoords (fun j : Fin (D + 1) => s'.v j) lam') {τ τ' : Fin (d + 1) → ℕ} (hτ : Function.Injective τ) (hlt : ∀ r, τ r < D + 1)
    (hτ' : Function.Injective τ') (hlt' : ∀ r, τ' r < D + 1) (hg : (List.ofFn τ).map g = (List.ofFn τ').map g') (n : ℕ) (c c' : ℕ → ℝ) :
    (∀ x x', OnEntity s (List.ofFn τ) x → OnEntity s' (List.ofFn τ') x' → cellMap A b x = cellMap A' b' x' →
      eval x (bernsteinFn lam n c) = eval x' (bernsteinFn lam' n c')) ↔
      ∀ k ∈ mis (d + 1) n, coefAt D n c (extendExp D τ k) = coefAt D n c' (extendExp D τ' k) := by
  have hv := shared_verts hm hm' hlt hlt' hg
  have h1 : (∀ x x', OnEntity s (List.ofFn τ) x → OnEntity s' (List.ofFn τ') x' → cellMap A b x = cellMap A' b' x' →
      eval x (bernsteinFn lam n c) = eval x' (bernsteinFn lam' n c')) ↔
      ∀ y : Fin d → ℝ, eval (entMap (fun r => s.v (τ r)) y) (bernsteinFn lam n c) =
        eval (entMap (fun r => s'.v (τ' r)) y) (bernsteinFn lam' n c') := by
    constructor
    · intro h y
      exact h _ _ ((onEntity_iff s τ hτ _).2 ⟨y, rfl⟩) ((onEntity_iff s' τ' hτ' _).2 ⟨y, rfl⟩)
        ((shared_points hs hm hτ hlt hv y y).2 rfl)
    · intro h x x' hx hx' he
      obtain ⟨y, rfl⟩ := (onEntity_iff s τ hτ _).1 hx
      obtain ⟨y', rfl⟩ := (onEntity_iff s' τ' hτ' _).1 hx'
      rw [shared_points hs hm hτ hlt hv] at he
      rw [← he]
      exact h y
  rw [h1]
  simp only [trace_eval hb hτ hlt, trace_eval hb' hτ' hlt']
  constructor
  · intro h k hk
    have := refBern_independent (fun k => coefAt D n c (extendExp D τ k) - coefAt D n c' (extendExp D τ' k)) (fun y => by
      simp only [sub_mul, Finset.sum_sub_distrib]
      rw [h y, sub_self]) k hk
    exact sub_eq_zero.1 this
  · intro h y
    exact Finset.sum_congr rfl fun k hk => by rw [h k (List.mem_toFinset.1 hk)]

/-- C81: the coefficients of the dofs of a shared entity and of its sub-entities agree exactly when the two functions agree there. -/
theorem bernstein_conforming (hs : ProperSimplex ℝ s) (hs' : ProperSimplex ℝ s') (hsort : SortedSimplex s.topo D)
    (hsort' : SortedSimplex s'.topo D) (hm : InMesh X s A b g) (hm' : InMesh X s' A' b' g') {n : ℕ} (hn : 1 ≤ n)
    {ids ids' : EntityIds ℕ} {N N' : ℕ} (hdual : bernsteinDual s.topo D n = some (ids, N))
    (hdual' : bernsteinDual s'.topo D n = some (ids', N'))
    {lam lam' : Fin (D + 1) → MvPolynomial (Fin D) ℝ} (hb : BaryCoords (fun j : Fin (D + 1) => s.v j) lam)
    (hb' : BaryCoords (fun j : Fin (D + 1) => s'.v j) lam') {d e d' e' : ℕ} {t t' : List ℕ} (ht : HasEntity s.topo d e t)
    (ht' : HasEntity s'.topo d' e' t') (hsh : SharedEntity g t g' t') (c c' : ℕ → ℝ) :
    (∀ d1 e1 t1 d1' e1' t1', HasEntity s.topo d1 e1 t1 → (∀ a ∈ t1, a ∈ t) → HasEntity s'.topo d1' e1' t1' → SharedEntity g t1 g' t1' →
      ∃ l l', ids.at? d1 e1 = some l ∧ ids'.at? d1' e1' = some l' ∧ l.map c = l'.map c') ↔
      ∀ x x', OnEntity s t x → OnEntity s' t' x' → cellMap A b x = cellMap A' b' x' →
        eval x (bernsteinFn lam n c) = eval x' (bernsteinFn lam' n c') := by
  classical
  have hat : ∀ {topo : Topology ℕ} (_ : SortedSimplex topo D) {ids : EntityIds ℕ} {N : ℕ} (_ : bernsteinDual topo D n = some (ids, N))
      {d e : ℕ} {t : List ℕ} (_ : HasEntity topo d e t), ∃ l, ids.at? d e = some l := by
    intro topo hsort ids N hdual d e t h
    obtain ⟨ids1, h1, h2, -⟩ := bernstein_dual_spec topo D hsort n hn
    rw [hdual, Option.some.injEq, Prod.mk.injEq] at h1
    obtain ⟨rfl, -⟩ := h1
    exact Option.isSome_iff_exists.1 ((h2 d e).2 ⟨t, h⟩)
  obtain ⟨hdd, hg⟩ := shared_tuple hs hs' hm hm' ht ht' hsh
  subst hdd
  obtain ⟨τ, hτ, hlt, rfl, -⟩ := entity_tuple hs ht
  obtain ⟨τ', hτ', hlt', rfl, -⟩ := entity_tuple hs' ht'
  rw [bernstein_trace_iff hs hm hm' hb hb' hτ hlt hτ' hlt' hg]
  have hmono := mesh_tuple_strictMono hs hsort hm ht hlt
  have hmono' := mesh_tuple_strictMono hs' hsort' hm' ht' hlt'
  have hgτ : ∀ r, g (τ r) = g' (τ' r) := by
    rw [List.map_ofFn, List.map_ofFn] at hg
    exact fun r => congrFun (ofFn_inj' hg) r
  constructor
  · intro h k hk
    let S : Finset (Fin (d' + 1)) := Finset.univ.filter fun r => k.getD (r : ℕ) 0 ≠ 0
    obtain ⟨k1, k2⟩ := (mis_mem _ _ (by omega) k).1 hk
    have hne : S.card ≠ 0 := by
      intro h0
      have h0' := Finset.card_eq_zero.1 h0
      have : k.sum = 0 := by
        rw [sum_getD k1]
        refine Finset.sum_eq_zero fun r _ => ?_
        by_contra hc
        have : r ∈ S := Finset.mem_filter.2 ⟨Finset.mem_univ r, hc⟩
        rw [h0'] at this
        simp at this
      omega
    obtain ⟨m, hm1⟩ := Nat.exists_eq_succ_of_ne_zero hne
    let ρ : Fin (m + 1) → Fin (d' + 1) := S.orderEmbOfFin hm1
    have hρ : StrictMono ρ := (S.orderEmbOfFin hm1).strictMono
    have hρS : ∀ r : Fin (d' + 1), k.getD (r : ℕ) 0 ≠ 0 → ∃ j, ρ j = r := fun r hr => by
      have : r ∈ S := Finset.mem_filter.2 ⟨Finset.mem_univ r, hr⟩
      have h2 := Finset.range_orderEmbOfFin S hm1
      have h3 : r ∈ Set.range (S.orderEmbOfFin hm1) := by rw [h2]; exact this
      exact h3
    have hρk : ∀ j, k.getD (ρ j : ℕ) 0 ≠ 0 := fun j => (Finset.mem_filter.1 (Finset.orderEmbOfFin_mem S hm1 j)).2
    have hρ' : StrictMono fun j => (ρ j : ℕ) := fun i j hij => hρ hij
    have hsupp : ∀ j, k.getD j 0 ≠ 0 → ∃ r, ((ρ r : Fin (d' + 1)) : ℕ) = j := fun j hj => by
      have hjd : j < d' + 1 := by
        by_contra hc
        rw [List.getD_eq_default _ _ (by omega)] at hj
        exact hj rfl
      obtain ⟨r, hr⟩ := hρS ⟨j, hjd⟩ hj
      exact ⟨r, congrArg Fin.val hr⟩
    set k0 := restrictExp (fun j => (ρ j : ℕ)) k with hk0
    have hext : extendExp d' (fun j => (ρ j : ℕ)) k0 = k := extend_restrict hρ'.injective (fun r => (ρ r).2) k1 hsupp
    have hk0m : k0 ∈ mis (m + 1) n := restrictExp_mem hρ'.injective (fun r => (ρ r).2) hk hsupp
    have hdim : ∀ {s : SimplexCell (Fin D → ℝ)} (_ : ProperSimplex ℝ s) (_ : SortedSimplex s.topo D) {τ : Fin (d' + 1) → ℕ} (_ : StrictMono τ)
        (_ : ∀ r, τ r < D + 1), ∃ e1, HasEntity s.topo m e1 (List.ofFn fun j => τ (ρ j)) := by
      intro s hs hsort τ hmono hlt
      obtain ⟨d1, e1, h1⟩ := sorted_tuple hsort (hmono.comp hρ) fun r => hlt _
      have h2 := (hs.2.1.entity _ _ _ h1).2.1
      rw [List.length_ofFn] at h2
      obtain rfl : d1 = m := by omega
      exact ⟨e1, h1⟩
    obtain ⟨e1, h1⟩ := hdim hs hsort hmono hlt
    obtain ⟨e1', h1'⟩ := hdim hs' hsort' hmono' hlt'
    obtain ⟨l, l', hl, hl', hll⟩ := h m e1 _ m e1' _ h1 (fun a ha => by
      obtain ⟨j, rfl⟩ := List.mem_ofFn.1 ha
      exact List.mem_ofFn.2 ⟨ρ j, rfl⟩) h1' (fun i => by
        rw [List.map_ofFn, List.map_ofFn]
        have : (g ∘ fun j => τ (ρ j)) = g' ∘ fun j => τ' (ρ j) := _root_.funext fun j => hgτ (ρ j)
        rw [this])
    have := (bernstein_dofs_iff hsort hsort' hn hdual hdual' (hmono.comp hρ) (fun r => hlt _) h1 (hmono'.comp hρ) (fun r => hlt' _) h1'
      hl hl' c c').1 hll k0 hk0m (fun r => by rw [restrictExp_at]; exact hρk r)
    rw [← hext, extendExp_comp hτ hlt hρ.injective, extendExp_comp hτ' hlt' hρ.injective]
    exact this
  · intro h d1 e1 t1 d1' e1' t1' h1 hsub h1' hsh1
    obtain ⟨hdd1, hg1⟩ := shared_tuple hs hs' hm hm' h1 h1' hsh1
    subst hdd1
    obtain ⟨σ, hσ, hσlt, rfl, -⟩ := entity_tuple hs h1
    obtain ⟨σ', hσ', hσlt', rfl, -⟩ := entity_tuple hs' h1'
    obtain ⟨l, hl⟩ := hat hsort hdual h1
    obtain ⟨l', hl'⟩ := hat hsort' hdual' h1'
    refine ⟨l, l', hl, hl', ?_⟩
    have hσm := mesh_tuple_strictMono hs hsort hm h1 hσlt
    have hσm' := mesh_tuple_strictMono hs' hsort' hm' h1' hσlt'
    rw [bernstein_dofs_iff hsort hsort' hn hdual hdual' hσm hσlt h1 hσm' hσlt' h1' hl hl']
    have hex : ∀ j, ∃ r, τ r = σ j := fun j => List.mem_ofFn.1 (hsub _ (List.mem_ofFn.2 ⟨j, rfl⟩))
    choose ρ hρ using hex
    have hρi : Function.Injective ρ := fun i j hij => hσ (by rw [← hρ i, ← hρ j, hij])
    have hgσ : ∀ r, g (σ r) = g' (σ' r) := by
      rw [List.map_ofFn, List.map_ofFn] at hg1
      exact fun r => congrFun (ofFn_inj' hg1) r
    have hinj : ∀ a a', a < D + 1 → a' < D + 1 → g' a = g' a' → a = a' := fun a a' ha ha' haa => by
      rcases lt_trichotomy a a' with h | h | h
      · have := (mesh_strictMono hsort' hm' _ _ ha ha').1 h; omega
      · exact h
      · have := (mesh_strictMono hsort' hm' _ _ ha' ha).1 h; omega
    have hρ' : ∀ j, τ' (ρ j) = σ' j := fun j => hinj _ _ (hlt' _) (hσlt' _) (by rw [← hgτ, hρ, hgσ])
    intro k hk _
    have h2 := h (extendExp d' (fun j => (ρ j : ℕ)) k) (extendExp_mem (fun r => (ρ r).2) hk)
    rw [extendExp_comp hτ hlt hρi, extendExp_comp hτ' hlt' hρi] at h2
    simp only [hρ, hρ'] at h2
    exact h2


/-- `bernsteinFn` is the combination of the functions that `tabulate` returns. -/
theorem bernsteinFn_tabulate (hD : 1 ≤ D) {v : Fin (D + 1) → Fin D → ℝ} {lam : Fin (D + 1) → MvPolynomial (Fin D) ℝ} (h : BaryCoords v lam)
    {n : ℕ} (hn : 1 ≤ n) {N : ℕ} (x : Fin N → Fin D → ℝ) (c : ℕ → ℝ) :
    ∃ res rows, bernsteinTabulate v n 0 x = some res ∧ Dict.get? res (List.replicate D 0) = some rows ∧
      rows.length = (mis (D + 1) n).length ∧
      ∀ p, eval (x p) (bernsteinFn lam n c) = ∑ i ∈ Finset.range rows.length, c i * (rows.getD i fun _ => 0) p := by
  obtain ⟨res, h1, h2, h3⟩ := bernstein_tabulate_partial hD v lam h n 0 x
  obtain ⟨rows, hrows⟩ := Option.isSome_iff_exists.1 (Dict.get?_isSome_iff.2 ((h2 (List.replicate D 0)).2 (by simp)))
  obtain ⟨h4, h5⟩ := h3 _ _ hrows
  have hlen : rows.length = (mis (D + 1) n).length := by
    rw [h4, mis_length _ _ (by omega)]; congr 1
  refine ⟨res, rows, h1, hrows, hlen, fun p => ?_⟩
  unfold bernsteinFn
  rw [map_sum, hlen]
  refine Finset.sum_congr rfl fun i hi => ?_
  have hi' := Finset.mem_range.1 hi
  have hir : i < rows.length := by rw [hlen]; exact hi'
  rw [map_mul, eval_C, List.getD_eq_getElem _ _ hi', List.getD_eq_getElem _ _ hir]
  have := h5 i _ _ (List.getElem?_eq_getElem hi') (List.getElem?_eq_getElem hir) p
  rw [this, if_neg (by simp; omega), one_mul]
  rw [iterDeriv_zero]

end

/-! ### Examples -/

theorem sorted_tri : SortedSimplex tri.topo 2 := sorted_ufcTriangle
theorem sorted_tet : SortedSimplex tet.topo 3 := sorted_ufcTetrahedron

theorem bary_tri : BaryCoords (fun j : Fin (2 + 1) => tri.v j) ![1 - X 0 - X 1, X 0, X 1] := by
  intro i
  fin_cases i
  · refine ⟨⟨![-1, -1], 1, by simp [Fin.sum_univ_two]; ring⟩, fun j => ?_⟩
    fin_cases j <;> simp [SimplexCell.v, CellData.toSimplex, ufcTriangle]
  · refine ⟨⟨![1, 0], 0, by simp [Fin.sum_univ_two]⟩, fun j => ?_⟩
    fin_cases j <;> simp [SimplexCell.v, CellData.toSimplex, ufcTriangle]
  · refine ⟨⟨![0, 1], 0, by simp [Fin.sum_univ_two]⟩, fun j => ?_⟩
    fin_cases j <;> simp [SimplexCell.v, CellData.toSimplex, ufcTriangle]

theorem bary_tet : BaryCoords (fun j : Fin (3 + 1) => tet.v j) ![1 - X 0 - X 1 - X 2, X 0, X 1, X 2] := by
  intro i
  fin_cases i
  · refine ⟨⟨![-1, -1, -1], 1, by simp [Fin.sum_univ_three]; ring⟩, fun j => ?_⟩
    fin_cases j <;> simp [SimplexCell.v, CellData.toSimplex, ufcTetrahedron]
  · refine ⟨⟨![1, 0, 0], 0, by simp [Fin.sum_univ_three]⟩, fun j => ?_⟩
    fin_cases j <;> simp [SimplexCell.v, CellData.toSimplex, ufcTetrahedron]
  · refine ⟨⟨![0, 1, 0], 0, by simp [Fin.sum_univ_three]⟩, fun j => ?_⟩
    fin_cases j <;> simp [SimplexCell.v, CellData.toSimplex, ufcTetrahedron]
  · refine ⟨⟨![0, 0, 1], 0, by simp [Fin.sum_univ_three]⟩, fun j => ?_⟩
    fin_cases j <;> simp [SimplexCell.v, CellData.toSimplex, ufcTetrahedron]

/-- Bernstein elements of every degree on the two triangles of the unit square: equal coefficients on the diagonal make the functions
equal there. -/
example (n : ℕ) (hn : 1 ≤ n) (c c' : ℕ → ℝ) : ∃ ids N, bernsteinDual tri.topo 2 n = some (ids, N) ∧
    ((∀ d1 e1 t1 d1' e1' t1', HasEntity tri.topo d1 e1 t1 → (∀ a ∈ t1, a ∈ [1, 2]) → HasEntity tri.topo d1' e1' t1' →
      SharedEntity id t1 (· + 1) t1' → ∃ l l', ids.at? d1 e1 = some l ∧ ids.at? d1' e1' = some l' ∧ l.map c = l'.map c') ↔
      ∀ x x', OnEntity tri [1, 2] x → OnEntity tri [0, 1] x' → cellMap 1 0 x = cellMap !![-1, 0; 1, 1] ![1, 0] x' →
        eval x (bernsteinFn ![1 - X 0 - X 1, X 0, X 1] n c) = eval x' (bernsteinFn ![1 - X 0 - X 1, X 0, X 1] n c')) := by
  obtain ⟨ids, h, -⟩ := bernstein_dual_spec tri.topo 2 sorted_tri n hn
  exact ⟨ids, _, h, bernstein_conforming proper_ufcTriangle proper_ufcTriangle sorted_tri sorted_tri square_left square_right hn h h
    bary_tri bary_tri square_edges.1 square_edges.2.1 square_edges.2.2 c c'⟩

example (n : ℕ) (hn : 1 ≤ n) (c c' : ℕ → ℝ) : ∃ ids N, bernsteinDual tet.topo 3 n = some (ids, N) ∧
    ((∀ d1 e1 t1 d1' e1' t1', HasEntity tet.topo d1 e1 t1 → (∀ a ∈ t1, a ∈ [1, 2, 3]) → HasEntity tet.topo d1' e1' t1' →
      SharedEntity id t1 (· + 1) t1' → ∃ l l', ids.at? d1 e1 = some l ∧ ids.at? d1' e1' = some l' ∧ l.map c = l'.map c') ↔
      ∀ x x', OnEntity tet [1, 2, 3] x → OnEntity tet [0, 1, 2] x' →
        cellMap 1 0 x = cellMap !![-1, -1, 0; 1, 0, 1; 0, 1, 1] ![1, 0, 0] x' →
        eval x (bernsteinFn ![1 - X 0 - X 1 - X 2, X 0, X 1, X 2] n c) =
          eval x' (bernsteinFn ![1 - X 0 - X 1 - X 2, X 0, X 1, X 2] n c')) := by
  obtain ⟨ids, h, -⟩ := bernstein_dual_spec tet.topo 3 sorted_tet n hn
  exact ⟨ids, _, h, bernstein_conforming proper_ufcTetrahedron proper_ufcTetrahedron sorted_tet sorted_tet bipyramid_lower bipyramid_upper hn h h
    bary_tet bary_tet bipyramid_faces.1 bipyramid_faces.2.1 bipyramid_faces.2.2 c c'⟩

end FIAT
