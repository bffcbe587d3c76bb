/-
C36: `Hdiv` and `Hcurl` accept the right form degrees and place components and signs as documented.
-/
import Verif.Model.HdivCurl
import Verif.Props.TensorElement

namespace FIAT

/-! ### Specification -/

/-- The values of two vectors agree with "block `u` of length `c` at position `lo`, zero elsewhere", for a vector with `sd`
components. -/
def IsBlock {K : Type} [Field K] (sd lo c : ℕ) (u w : ℕ → K) : Prop :=
  (∀ k, k < c → w (lo + k) = u k) ∧ ∀ k, k < sd → (k < lo ∨ lo + c ≤ k) → w k = 0

/-- The wrapped element's tables are those of the product element with the component vector `u` of every basis function at
every point, and every derivative, replaced by a vector `w` with `P u w`. -/
def Wraps {K α : Type} [Field K] (W : WrappedElem K) (A B : TabElem K α) (P : (ℕ → K) → (ℕ → K) → Prop) : Prop :=
  ∀ order points ent old, tensorTabulate A B order points ent = some old →
    ∃ new, W.tabulate order points ent = some new ∧ (∀ a, (Dict.get? new a).isSome ↔ (Dict.get? old a).isSome) ∧
      ∀ a t t', Dict.get? old a = some t → Dict.get? new a = some t' →
        ∀ r j, P (fun k => t r k j) (fun k => t' r k j)

section
variable {K α : Type} [Field K]

/-! ### Helper lemmas -/

private theorem tensor_wf (A B : TabElem K α) (order : ℕ) (points : List (List K)) (ent : Key × ℕ) (R : Tab K)
    (h : tensorTabulate A B order points ent = some R) : Dict.WF R ∧ R ≠ [] := by
  unfold tensorTabulate at h
  split at h
  · simp only [Option.bind_eq_bind, Option.bind_eq_some_iff] at h
    obtain ⟨tA, -, tB, -, h⟩ := h
    split_ifs at h
    simp only [Option.bind_eq_some_iff] at h
    obtain ⟨TA, -, TB, -, h⟩ := h
    have key : ∀ (L : List (List ℕ)) (s R : Tab K), Dict.WF s →
        L.foldlM (fun (res : Tab K) alpha => (Dict.get? TA (alpha.take A.sd)).bind fun a =>
          (Dict.get? TB ((alpha.drop A.sd).take B.sd)).bind fun b => (tensorArray A B a b).bind fun arr =>
            some (Dict.put res alpha arr)) s = some R → Dict.WF R ∧ (s ≠ [] ∨ L ≠ [] → R ≠ []) := by
      intro L
      induction L with
      | nil => intro s R hs hR; simp at hR; subst hR; exact ⟨hs, by simp⟩
      | cons x L ih =>
        intro s R hs hR
        rw [List.foldlM_cons] at hR
        simp only [Option.bind_eq_bind, Option.bind_eq_some_iff] at hR
        obtain ⟨s', ⟨a, -, b, -, arr, -, hs'⟩, hR⟩ := hR
        have hs'' : Dict.put s x arr = s' := Option.some.inj hs'
        obtain ⟨h1, h2⟩ := ih s' R (hs'' ▸ Dict.WF.put hs x arr) hR
        refine ⟨h1, fun _ => h2 (Or.inl ?_)⟩
        rw [← hs'']
        intro hnil
        have := Dict.get?_put_self s x arr
        rw [hnil] at this
        simp [Dict.get?] at this
    obtain ⟨h1, h2⟩ := key _ [] R (by simp [Dict.WF, Dict.keys]) h
    refine ⟨h1, h2 (Or.inr ?_)⟩
    intro hnil
    have : ∀ sd order, jetKeys sd order ≠ [] := by
      intro sd order hj
      unfold jetKeys at hj
      rw [List.flatMap_eq_nil_iff] at hj
      have := hj 0 (by simp)
      unfold mis at this
      cases sd with
      | zero => simp at this
      | succ n => cases n <;> simp at this
    exact this _ _ hnil
  · exact absurd h (by simp)

private theorem wrap_some (f : Arr K → Option (Arr K)) (g : Arr K → Arr K) (hf : ∀ x, f x = some (g x)) (old : Tab K)
    (hw : Dict.WF old) : wrapTabulate f old = some (old.map fun p => (p.1, g p.2)) := by
  unfold wrapTabulate
  simp only [hf, Option.bind_eq_bind, Option.bind_some]
  have h := foldl_put_pairs old (fun p => p.1) (fun p => g p.2) [] hw (by simp [Dict.keys])
  have e : ∀ (L : List (List ℕ × Arr K)) (s : Tab K), L.foldlM (fun (res : Tab K) (p : List ℕ × Arr K) =>
      some (Dict.put res p.1 (g p.2))) s = some (L.foldl (fun (res : Tab K) p => Dict.put res p.1 (g p.2)) s) := by
    intro L
    induction L with
    | nil => intro s; rfl
    | cons a L ih => intro s; rw [List.foldlM_cons, List.foldl_cons]; exact ih _
  rw [e]
  simpa using h

private theorem get?_map_snd (g : Arr K → Arr K) (old : Tab K) (a : List ℕ) :
    Dict.get? (old.map fun p => (p.1, g p.2)) a = (Dict.get? old a).map g := by
  induction old with
  | nil => rfl
  | cons p L ih =>
    obtain ⟨k, x⟩ := p
    simp only [Dict.get?, List.map_cons] at ih ⊢
    split_ifs
    · rfl
    · exact ih

private theorem wraps_of {iA iB : FormInfo} {A B : TabElem K α} {fd sh : ℕ} {mp : PullBack}
    {nodes : List (Functional K (List K))} {f : Arr K → Option (Arr K)} (g : Arr K → Arr K) (hf : ∀ x, f x = some (g x))
    {P : (ℕ → K) → (ℕ → K) → Prop} (hP : ∀ t : Arr K, ∀ r j, P (fun k => t r k j) (fun k => g t r k j)) :
    Wraps (⟨fd, mp, sh, nodes, fun order points ent => do
      let old ← tensorTabulate A B order points ent
      wrapTabulate f old⟩ : WrappedElem K) A B P := by
  intro order points ent old hold
  refine ⟨old.map fun p => (p.1, g p.2), ?_, fun a => ?_, fun a t t' ht ht' r j => ?_⟩
  · simp only [hold, Option.bind_eq_bind, Option.bind_some]
    exact wrap_some f g hf old (tensor_wf A B order points ent old hold).1
  · rw [get?_map_snd]; simp
  · rw [get?_map_snd, ht, Option.map_some, Option.some.injEq] at ht'
    rw [← ht']
    exact hP t r j

/-! ### Acceptance -/

/-- C36: `Hdiv` accepts exactly the product elements whose factors have form degrees adding up to `n - 1` (`n` the dimension
of the product cell; one of the factors has to be affine for the product to exist); the result is an `(n-1)`-form with the
contravariant Piola map and `n` components. -/
theorem hdiv_accepts (iA iB : FormInfo) (A B : TabElem K α) (nodes : List (Bool × Functional K (List K))) :
    ((Hdiv iA iB A B nodes).isSome ↔ (iA.map = .affine ∨ iB.map = .affine) ∧
      ∃ a b, iA.fd = some a ∧ iB.fd = some b ∧ a + b + 1 = iA.sd + iB.sd) ∧
    ∀ W, Hdiv iA iB A B nodes = some W → W.fd + 1 = iA.sd + iB.sd ∧ W.map = .contravariant ∧ W.shape = iA.sd + iB.sd ∧
      W.nodes.length = nodes.length := by
  constructor
  · unfold Hdiv hdivFormdegree tensorMapping
    rcases iA.fd with _ | a <;> rcases iB.fd with _ | b
    · simp
    · simp
    · simp
    · dsimp only
      by_cases hh : a + b + 1 = iA.sd + iB.sd
      · have h1 : ¬ (((a + b : ℕ) : ℤ) ≠ ((iA.sd + iB.sd : ℕ) : ℤ) - 1) := by omega
        rw [if_neg h1]
        cases iA.map <;> cases iB.map <;> simp [hh]
      · have h1 : ((a + b : ℕ) : ℤ) ≠ ((iA.sd + iB.sd : ℕ) : ℤ) - 1 := by omega
        rw [if_pos h1]
        simp [hh]
  · intro W hW
    unfold Hdiv hdivFormdegree at hW
    rcases hA : iA.fd with _ | a <;> rcases hB : iB.fd with _ | b <;> simp only [hA, hB] at hW <;> try simp at hW
    simp only [Option.bind_eq_some_iff] at hW
    obtain ⟨fd, h1, m, -, h3⟩ := hW
    rw [← Option.some.inj h3]
    refine ⟨?_, rfl, rfl, ?_⟩
    · split_ifs at h1 with hh
      have := Option.some.inj h1
      show fd + 1 = _
      omega
    unfold splatNodes; split_ifs <;> simp

/-- C36: `Hcurl` accepts exactly the product elements whose factors' form degrees add up to 1. -/
theorem hcurl_accepts (iA iB : FormInfo) (A B : TabElem K α) (nodes : List (Bool × Functional K (List K))) :
    ((Hcurl iA iB A B nodes).isSome ↔ (iA.map = .affine ∨ iB.map = .affine) ∧
      ∃ a b, iA.fd = some a ∧ iB.fd = some b ∧ a + b = 1) ∧
    ∀ W, Hcurl iA iB A B nodes = some W → W.fd = 1 ∧ W.map = .covariant ∧ W.shape = iA.sd + iB.sd ∧
      W.nodes.length = nodes.length := by
  constructor
  · unfold Hcurl hcurlFormdegree tensorMapping
    rcases iA.fd with _ | a <;> rcases iB.fd with _ | b
    · simp
    · simp
    · simp
    · dsimp only
      by_cases hh : a + b = 1
      · rw [if_neg (not_not.2 hh)]
        cases iA.map <;> cases iB.map <;> simp [hh]
      · rw [if_pos hh]
        simp [hh]
  · intro W hW
    unfold Hcurl hcurlFormdegree at hW
    rcases hA : iA.fd with _ | a <;> rcases hB : iB.fd with _ | b <;> simp only [hA, hB] at hW <;> try simp at hW
    simp only [Option.bind_eq_some_iff] at hW
    obtain ⟨fd, h1, m, -, h3⟩ := hW
    rw [← Option.some.inj h3]
    refine ⟨?_, rfl, rfl, ?_⟩
    · split_ifs at h1 with hh
      have := Option.some.inj h1
      show fd = _
      omega
    unfold splatNodes; split_ifs <;> simp

/-- C36: when both factors are 0-forms or top forms (the affine elements), `Hdiv` accepts exactly "a 0-form on an interval
times a top form", in either order. -/
theorem hdiv_affine_factors (iA iB : FormInfo) (A B : TabElem K α) (nodes : List (Bool × Functional K (List K)))
    (mA : iA.map = .affine) (mB : iB.map = .affine) (dA : 1 ≤ iA.sd) (dB : 1 ≤ iB.sd)
    (fA : iA.fd = some 0 ∨ iA.fd = some iA.sd) (fB : iB.fd = some 0 ∨ iB.fd = some iB.sd) :
    (Hdiv iA iB A B nodes).isSome ↔
      (iA.fd = some 0 ∧ iA.sd = 1 ∧ iB.fd = some iB.sd) ∨ (iB.fd = some 0 ∧ iB.sd = 1 ∧ iA.fd = some iA.sd) := by
  rw [(hdiv_accepts iA iB A B nodes).1]
  constructor
  · rintro ⟨-, a, b, ha, hb, hs⟩
    rw [ha] at fA ⊢
    rw [hb] at fB ⊢
    simp only [Option.some.injEq] at fA fB ⊢
    omega
  · rintro (⟨h1, h2, h3⟩ | ⟨h1, h2, h3⟩)
    · exact ⟨Or.inl mA, _, _, h1, h3, by omega⟩
    · exact ⟨Or.inl mA, _, _, h3, h1, by omega⟩

/-- C36: for affine factors `Hcurl` accepts exactly "a 1-form on an interval times a 0-form". -/
theorem hcurl_affine_factors (iA iB : FormInfo) (A B : TabElem K α) (nodes : List (Bool × Functional K (List K)))
    (mA : iA.map = .affine) (mB : iB.map = .affine) (dA : 1 ≤ iA.sd) (dB : 1 ≤ iB.sd)
    (fA : iA.fd = some 0 ∨ iA.fd = some iA.sd) (fB : iB.fd = some 0 ∨ iB.fd = some iB.sd) :
    (Hcurl iA iB A B nodes).isSome ↔
      (iA.fd = some 1 ∧ iA.sd = 1 ∧ iB.fd = some 0) ∨ (iB.fd = some 1 ∧ iB.sd = 1 ∧ iA.fd = some 0) := by
  rw [(hcurl_accepts iA iB A B nodes).1]
  constructor
  · rintro ⟨-, a, b, ha, hb, hs⟩
    rw [ha] at fA ⊢
    rw [hb] at fB ⊢
    simp only [Option.some.injEq] at fA fB ⊢
    omega
  · rintro (⟨h1, h2, h3⟩ | ⟨h1, h2, h3⟩)
    · exact ⟨Or.inl mA, _, _, h1, h3, by omega⟩
    · exact ⟨Or.inl mA, _, _, h3, h1, by omega⟩

/-! ### Placement of the components -/

private theorem hdiv_eq (iA iB : FormInfo) (A B : TabElem K α) (nodes : List (Bool × Functional K (List K)))
    (W : WrappedElem K) (h : Hdiv iA iB A B nodes = some W) (m : PullBack) (hm : tensorMapping iA.map iB.map = some m) :
    ∃ fd, W = ⟨fd, .contravariant, iA.sd + iB.sd, splatNodes m nodes, fun order points ent => do
      let old ← tensorTabulate A B order points ent
      wrapTabulate (hdivArray iA iB m (tensorComps A B)) old⟩ := by
  unfold Hdiv at h
  simp only [Option.bind_eq_bind, Option.bind_eq_some_iff] at h
  obtain ⟨fd, -, m', h2, h3⟩ := h
  obtain rfl : m = m' := Option.some.inj (hm.symm.trans h2)
  exact ⟨fd, (Option.some.inj h3).symm⟩

private theorem hcurl_eq (iA iB : FormInfo) (A B : TabElem K α) (nodes : List (Bool × Functional K (List K)))
    (W : WrappedElem K) (h : Hcurl iA iB A B nodes = some W) (m : PullBack) (hm : tensorMapping iA.map iB.map = some m) :
    ∃ fd, W = ⟨fd, .covariant, iA.sd + iB.sd, splatNodes m nodes, fun order points ent => do
      let old ← tensorTabulate A B order points ent
      wrapTabulate (hcurlArray iA iB m (tensorComps A B)) old⟩ := by
  unfold Hcurl at h
  simp only [Option.bind_eq_bind, Option.bind_eq_some_iff] at h
  obtain ⟨fd, -, m', h2, h3⟩ := h
  obtain rfl : m = m' := Option.some.inj (hm.symm.trans h2)
  exact ⟨fd, (Option.some.inj h3).symm⟩

/-- C36: scalar factors, the first one a 0-form: the field is `(-u, 0, ..., 0)`. -/
theorem hdiv_scalar_first (iA iB : FormInfo) (A B : TabElem K α) (nodes : List (Bool × Functional K (List K)))
    (W : WrappedElem K) (h : Hdiv iA iB A B nodes = some W) (mA : iA.map = .affine) (mB : iB.map = .affine)
    (fA : iA.fd = some 0) : Wraps W A B fun u w => IsBlock (iA.sd + iB.sd) 0 1 (fun k => -u k) w := by
  obtain ⟨fd, rfl⟩ := hdiv_eq iA iB A B nodes W h .affine (by rw [mA, mB]; rfl)
  refine wraps_of (iA := iA) (iB := iB) (fun old => setComp 0 (fun r j => -old r 0 j) fun _ _ _ => 0) (fun x => ?_) ?_
  · show (if iA.fd = some 0 then _ else _) = _
    rw [if_pos fA]
  · intro t r j
    refine ⟨fun k hk => ?_, fun k _ hk => ?_⟩
    · obtain rfl : k = 0 := by omega
      simp [setComp]
    · simp [setComp, show k ≠ 0 by omega]

/-- C36: scalar factors, the second one a 0-form (and the first one not): the field is `(0, ..., 0, u)`. -/
theorem hdiv_scalar_second (iA iB : FormInfo) (A B : TabElem K α) (nodes : List (Bool × Functional K (List K)))
    (W : WrappedElem K) (h : Hdiv iA iB A B nodes = some W) (mA : iA.map = .affine) (mB : iB.map = .affine)
    (fA : iA.fd ≠ some 0) (fB : iB.fd = some 0) :
    Wraps W A B fun u w => IsBlock (iA.sd + iB.sd) (iA.sd + iB.sd - 1) 1 u w := by
  obtain ⟨fd, rfl⟩ := hdiv_eq iA iB A B nodes W h .affine (by rw [mA, mB]; rfl)
  refine wraps_of (iA := iA) (iB := iB) (fun old => setComp (iA.sd + iB.sd - 1) (fun r j => old r 0 j) fun _ _ _ => 0)
    (fun x => ?_) ?_
  · show (if iA.fd = some 0 then _ else if iB.fd = some 0 then _ else _) = _
    rw [if_neg fA, if_pos fB]
  · intro t r j
    refine ⟨fun k hk => ?_, fun k _ hk => ?_⟩
    · obtain rfl : k = 0 := by omega
      simp [setComp]
    · simp [setComp, show k ≠ iA.sd + iB.sd - 1 by omega]

/-- C36: the first factor is contravariant (on a two-dimensional cell): the field is `(u1, u2, 0, ...)`. -/
theorem hdiv_vector_first (iA iB : FormInfo) (A B : TabElem K α) (nodes : List (Bool × Functional K (List K)))
    (W : WrappedElem K) (h : Hdiv iA iB A B nodes = some W) (mA : iA.map = .contravariant) (mB : iB.map = .affine)
    (dA : iA.sd = 2) (sA : A.shape = some 2) :
    Wraps W A B fun u w => IsBlock (iA.sd + iB.sd) 0 2 u w := by
  obtain ⟨fd, rfl⟩ := hdiv_eq iA iB A B nodes W h .contravariant (by rw [mA, mB]; rfl)
  refine wraps_of (iA := iA) (iB := iB) (fun old => fun r k j => if 0 ≤ k ∧ k < 2 then old r (k - 0) j else 0)
    (fun x => ?_) ?_
  · have hc : tensorComps A B = 2 := by simp [tensorComps, sA]
    show (if iA.map = .contravariant then setSlice 0 iA.sd (tensorComps A B) x _ else _) = _
    rw [if_pos mA, setSlice, hc, dA, if_pos (by omega)]
  · intro t r j
    refine ⟨fun k hk => ?_, fun k _ hk => ?_⟩
    · simp [hk]
    · simp [show ¬ k < 2 by omega]

/-- C36: the second factor is contravariant (on a two-dimensional cell): the field is `(0, ..., u1, u2)`. -/
theorem hdiv_vector_second (iA iB : FormInfo) (A B : TabElem K α) (nodes : List (Bool × Functional K (List K)))
    (W : WrappedElem K) (h : Hdiv iA iB A B nodes = some W) (mA : iA.map = .affine) (mB : iB.map = .contravariant)
    (dB : iB.sd = 2) (sB : B.shape = some 2) :
    Wraps W A B fun u w => IsBlock (iA.sd + iB.sd) iA.sd 2 u w := by
  obtain ⟨fd, rfl⟩ := hdiv_eq iA iB A B nodes W h .contravariant (by rw [mA, mB]; rfl)
  refine wraps_of (iA := iA) (iB := iB)
    (fun old => fun r k j => if iA.sd ≤ k ∧ k < iA.sd + iB.sd then old r (k - iA.sd) j else 0) (fun x => ?_) ?_
  · have hc : tensorComps A B = 2 := by simp [tensorComps, sB]
    show (if iA.map = .contravariant then _ else if iB.map = .contravariant then
      setSlice iA.sd (iA.sd + iB.sd) (tensorComps A B) x _ else _) = _
    rw [if_neg (by rw [mA]; simp), if_pos mB, setSlice, hc, if_pos (by omega)]
  · intro t r j
    refine ⟨fun k hk => ?_, fun k _ hk => ?_⟩
    · simp [show k < iB.sd by omega]
    · simp [show ¬ (iA.sd ≤ k ∧ k < iA.sd + iB.sd) by omega]

/-- C36: the first factor is covariant (on a two-dimensional cell): the field is the first factor turned by a right angle,
`(u2, -u1, 0, ...)`.  Partial: the mirrored case is `hdiv_covariant_second_fails`. -/
theorem hdiv_rotated_partial (iA iB : FormInfo) (A B : TabElem K α) (nodes : List (Bool × Functional K (List K)))
    (W : WrappedElem K) (h : Hdiv iA iB A B nodes = some W) (mA : iA.map = .covariant) (mB : iB.map = .affine)
    (dA : iA.sd = 2) (sA : A.shape = some 2) :
    Wraps W A B fun u w => w 0 = u 1 ∧ w 1 = -u 0 ∧ ∀ k, 2 ≤ k → k < iA.sd + iB.sd → w k = 0 := by
  obtain ⟨fd, rfl⟩ := hdiv_eq iA iB A B nodes W h .covariant (by rw [mA, mB]; rfl)
  have hc : tensorComps A B = 2 := by simp [tensorComps, sA]
  refine wraps_of (iA := iA) (iB := iB) (fun old => fun r k j => if 0 ≤ k ∧ k < 2 then
    setComp 1 (fun r j => -old r 0 j) (setComp 0 (fun r j => old r 1 j) fun _ _ _ => 0) r (k - 0) j else 0)
    (fun x => ?_) ?_
  · show (if iA.map = .covariant then if ¬ (iA.sd = 2) then none else if tensorComps A B < 2 then none else
      setSlice 0 iA.sd (tensorComps A B) (setComp 1 (fun r j => -x r 0 j) (setComp 0 (fun r j => x r 1 j) fun _ _ _ => 0)) _
      else none) = _
    rw [if_pos mA, if_neg (by simp [dA]), hc, if_neg (by omega), setSlice, dA, if_pos (by omega)]
  · intro t r j
    refine ⟨by simp [setComp], by simp [setComp], fun k hk _ => by simp [show ¬ k < 2 by omega]⟩

/-- C36, refuted case: a covariant second factor (for example `Hdiv` of DG x Nedelec) is accepted, but `tabulate` always
raises (an unassigned local name). -/
theorem hdiv_covariant_second_fails (iA iB : FormInfo) (A B : TabElem K α) (nodes : List (Bool × Functional K (List K)))
    (W : WrappedElem K) (h : Hdiv iA iB A B nodes = some W) (mA : iA.map = .affine) (mB : iB.map = .covariant)
    (order : ℕ) (points : List (List K)) (ent : Key × ℕ) : W.tabulate order points ent = none := by
  obtain ⟨fd, rfl⟩ := hdiv_eq iA iB A B nodes W h .covariant (by rw [mA, mB]; rfl)
  simp only [Option.bind_eq_bind, Option.bind_eq_none_iff]
  intro old hold
  obtain ⟨-, hne⟩ := tensor_wf A B order points ent old hold
  have hz : ∀ x : Arr K, hdivArray iA iB .covariant (tensorComps A B) x = none := by
    intro x
    show (if iA.map = .covariant then _ else none) = none
    rw [if_neg (by rw [mA]; simp)]
  cases old with
  | nil => exact absurd rfl hne
  | cons p L =>
    unfold wrapTabulate
    rw [List.foldlM_cons]
    simp [hz]

/-- C36: `Hcurl` of scalar factors, the first one a 1-form: the field is `(u, 0, ..., 0)`. -/
theorem hcurl_scalar_first (iA iB : FormInfo) (A B : TabElem K α) (nodes : List (Bool × Functional K (List K)))
    (W : WrappedElem K) (h : Hcurl iA iB A B nodes = some W) (mA : iA.map = .affine) (mB : iB.map = .affine)
    (fA : iA.fd = some 1) : Wraps W A B fun u w => IsBlock (iA.sd + iB.sd) 0 1 u w := by
  obtain ⟨fd, rfl⟩ := hcurl_eq iA iB A B nodes W h .affine (by rw [mA, mB]; rfl)
  refine wraps_of (iA := iA) (iB := iB) (fun old => setComp 0 (fun r j => old r 0 j) fun _ _ _ => 0) (fun x => ?_) ?_
  · show (if iA.fd = some 1 then _ else _) = _
    rw [if_pos fA]
  · intro t r j
    refine ⟨fun k hk => ?_, fun k _ hk => ?_⟩
    · obtain rfl : k = 0 := by omega
      simp [setComp]
    · simp [setComp, show k ≠ 0 by omega]

/-- C36: `Hcurl` of scalar factors, the second one a 1-form: the field is `(0, ..., 0, u)`. -/
theorem hcurl_scalar_second (iA iB : FormInfo) (A B : TabElem K α) (nodes : List (Bool × Functional K (List K)))
    (W : WrappedElem K) (h : Hcurl iA iB A B nodes = some W) (mA : iA.map = .affine) (mB : iB.map = .affine)
    (fA : iA.fd ≠ some 1) (fB : iB.fd = some 1) :
    Wraps W A B fun u w => IsBlock (iA.sd + iB.sd) (iA.sd + iB.sd - 1) 1 u w := by
  obtain ⟨fd, rfl⟩ := hcurl_eq iA iB A B nodes W h .affine (by rw [mA, mB]; rfl)
  refine wraps_of (iA := iA) (iB := iB) (fun old => setComp (iA.sd + iB.sd - 1) (fun r j => old r 0 j) fun _ _ _ => 0)
    (fun x => ?_) ?_
  · show (if iA.fd = some 1 then _ else if iB.fd = some 1 then _ else _) = _
    rw [if_neg fA, if_pos fB]
  · intro t r j
    refine ⟨fun k hk => ?_, fun k _ hk => ?_⟩
    · obtain rfl : k = 0 := by omega
      simp [setComp]
    · simp [setComp, show k ≠ iA.sd + iB.sd - 1 by omega]

/-- C36: `Hcurl` with a covariant first factor on a two-dimensional cell: `(u1, u2, 0, ...)`. -/
theorem hcurl_vector_first (iA iB : FormInfo) (A B : TabElem K α) (nodes : List (Bool × Functional K (List K)))
    (W : WrappedElem K) (h : Hcurl iA iB A B nodes = some W) (mA : iA.map = .covariant) (mB : iB.map = .affine)
    (dA : iA.sd = 2) (sA : A.shape = some 2) :
    Wraps W A B fun u w => IsBlock (iA.sd + iB.sd) 0 2 u w := by
  obtain ⟨fd, rfl⟩ := hcurl_eq iA iB A B nodes W h .covariant (by rw [mA, mB]; rfl)
  refine wraps_of (iA := iA) (iB := iB) (fun old => fun r k j => if 0 ≤ k ∧ k < 2 then old r (k - 0) j else 0)
    (fun x => ?_) ?_
  · have hc : tensorComps A B = 2 := by simp [tensorComps, sA]
    show (if iA.map = .covariant then setSlice 0 iA.sd (tensorComps A B) x _ else _) = _
    rw [if_pos mA, setSlice, hc, dA, if_pos (by omega)]
  · intro t r j
    refine ⟨fun k hk => ?_, fun k _ hk => ?_⟩
    · simp [hk]
    · simp [show ¬ k < 2 by omega]

/-- C36: `Hcurl` with a covariant second factor on a two-dimensional cell: `(0, ..., u1, u2)`. -/
theorem hcurl_vector_second (iA iB : FormInfo) (A B : TabElem K α) (nodes : List (Bool × Functional K (List K)))
    (W : WrappedElem K) (h : Hcurl iA iB A B nodes = some W) (mA : iA.map = .affine) (mB : iB.map = .covariant)
    (dB : iB.sd = 2) (sB : B.shape = some 2) :
    Wraps W A B fun u w => IsBlock (iA.sd + iB.sd) iA.sd 2 u w := by
  obtain ⟨fd, rfl⟩ := hcurl_eq iA iB A B nodes W h .covariant (by rw [mA, mB]; rfl)
  refine wraps_of (iA := iA) (iB := iB)
    (fun old => fun r k j => if iA.sd ≤ k ∧ k < iA.sd + iB.sd then old r (k - iA.sd) j else 0) (fun x => ?_) ?_
  · have hc : tensorComps A B = 2 := by simp [tensorComps, sB]
    show (if iA.map = .covariant then _ else if iB.map = .covariant then
      setSlice iA.sd (iA.sd + iB.sd) (tensorComps A B) x _ else _) = _
    rw [if_neg (by rw [mA]; simp), if_pos mB, setSlice, hc, if_pos (by omega)]
  · intro t r j
    refine ⟨fun k hk => ?_, fun k _ hk => ?_⟩
    · simp [show k < iB.sd by omega]
    · simp [show ¬ (iA.sd ≤ k ∧ k < iA.sd + iB.sd) by omega]

/-- C36: `Hcurl` with a contravariant first factor on a two-dimensional cell: turned by a right angle the other way,
`(-u2, u1, 0, ...)`.  Partial: see `hcurl_contravariant_second_fails`. -/
theorem hcurl_rotated_partial (iA iB : FormInfo) (A B : TabElem K α) (nodes : List (Bool × Functional K (List K)))
    (W : WrappedElem K) (h : Hcurl iA iB A B nodes = some W) (mA : iA.map = .contravariant) (mB : iB.map = .affine)
    (dA : iA.sd = 2) (sA : A.shape = some 2) :
    Wraps W A B fun u w => w 0 = -u 1 ∧ w 1 = u 0 ∧ ∀ k, 2 ≤ k → k < iA.sd + iB.sd → w k = 0 := by
  obtain ⟨fd, rfl⟩ := hcurl_eq iA iB A B nodes W h .contravariant (by rw [mA, mB]; rfl)
  have hc : tensorComps A B = 2 := by simp [tensorComps, sA]
  refine wraps_of (iA := iA) (iB := iB) (fun old => fun r k j => if 0 ≤ k ∧ k < 2 then
    setComp 1 (fun r j => old r 0 j) (setComp 0 (fun r j => -old r 1 j) fun _ _ _ => 0) r (k - 0) j else 0)
    (fun x => ?_) ?_
  · show (if iA.map = .contravariant then if ¬ (iA.sd = 2) then none else if tensorComps A B < 2 then none else
      setSlice 0 iA.sd (tensorComps A B) (setComp 1 (fun r j => x r 0 j) (setComp 0 (fun r j => -x r 1 j) fun _ _ _ => 0)) _
      else none) = _
    rw [if_pos mA, if_neg (by simp [dA]), hc, if_neg (by omega), setSlice, dA, if_pos (by omega)]
  · intro t r j
    refine ⟨by simp [setComp], by simp [setComp], fun k hk _ => by simp [show ¬ k < 2 by omega]⟩

/-- C36, refuted case: a contravariant second factor is accepted by `Hcurl`, but `tabulate` always raises. -/
theorem hcurl_contravariant_second_fails (iA iB : FormInfo) (A B : TabElem K α)
    (nodes : List (Bool × Functional K (List K)))
    (W : WrappedElem K) (h : Hcurl iA iB A B nodes = some W) (mA : iA.map = .affine) (mB : iB.map = .contravariant)
    (order : ℕ) (points : List (List K)) (ent : Key × ℕ) : W.tabulate order points ent = none := by
  obtain ⟨fd, rfl⟩ := hcurl_eq iA iB A B nodes W h .contravariant (by rw [mA, mB]; rfl)
  simp only [Option.bind_eq_bind, Option.bind_eq_none_iff]
  intro old hold
  obtain ⟨-, hne⟩ := tensor_wf A B order points ent old hold
  have hz : ∀ x : Arr K, hcurlArray iA iB .contravariant (tensorComps A B) x = none := by
    intro x
    show (if iA.map = .contravariant then _ else none) = none
    rw [if_neg (by rw [mA]; simp)]
  cases old with
  | nil => exact absurd rfl hne
  | cons p L =>
    unfold wrapTabulate
    rw [List.foldlM_cons]
    simp [hz]

/-- C36: point evaluation nodes of a product of scalar elements are dropped (replaced by the empty functional); all other
nodes, and all nodes when a factor is vector valued, are kept. -/
theorem hdiv_nodes (iA iB : FormInfo) (A B : TabElem K α) (nodes : List (Bool × Functional K (List K)))
    (W : WrappedElem K) (h : Hdiv iA iB A B nodes = some W) (i : ℕ) (b : Bool) (n : Functional K (List K))
    (hi : nodes[i]? = some (b, n)) :
    W.nodes[i]? = some (if iA.map = .affine ∧ iB.map = .affine ∧ b = true then ⟨[], []⟩ else n) := by
  obtain ⟨m, hm⟩ : ∃ m, tensorMapping iA.map iB.map = some m := by
    unfold Hdiv at h
    simp only [Option.bind_eq_bind, Option.bind_eq_some_iff] at h
    obtain ⟨fd, -, m', h2, h3⟩ := h
    exact ⟨m', h2⟩
  obtain ⟨fd, rfl⟩ := hdiv_eq iA iB A B nodes W h m hm
  simp only [splatNodes]
  have hb : m = .affine ↔ iA.map = .affine ∧ iB.map = .affine := by
    unfold tensorMapping at hm
    revert hm
    cases iA.map <;> cases iB.map <;> simp <;> rintro rfl <;> simp
  by_cases hmm : m = .affine
  · rw [if_pos hmm, List.getElem?_map, hi]
    cases b <;> simp [hb.1 hmm]
  · rw [if_neg hmm, List.getElem?_map, hi]
    have : ¬ (iA.map = .affine ∧ iB.map = .affine ∧ b = true) := fun hh => hmm (hb.2 ⟨hh.1, hh.2.1⟩)
    rw [if_neg this]; rfl

/-! ### End to end for scalar factors -/

open MvPolynomial

/-- C36/C26: `Hdiv` of a 0-form times a top form whose factors tabulate the derivatives of `f x` and `g y`: basis function
`x * dim B + y` is the field `(-f_x(p) g_y(q), 0, ...)`, with all its derivatives. -/
theorem hdiv_field (iA iB : FormInfo) (A B : TabElem K α) (nodes : List (Bool × Functional K (List K)))
    (W : WrappedElem K) (h : Hdiv iA iB A B nodes = some W) (mA : iA.map = .affine) (mB : iB.map = .affine)
    (fA : iA.fd = some 0) (sdA : iA.sd = A.sd) (sdB : iB.sd = B.sd)
    (hA : A.shape = none) (hB : B.shape = none)
    (hsd : 1 ≤ A.sd + B.sd) (order : ℕ) (points : List (List K)) (da db : Key) (va vb : List ℕ)
    (gA : GoodCell A.cell) (gB : GoodCell B.cell)
    (ha : HasEntity A.cell.topo da 0 va) (hb : HasEntity B.cell.topo db 0 vb)
    (dA : da.tupleSum = A.sd) (dB : db.tupleSum = B.sd)
    (hpts : ∀ p ∈ points, p.length = A.sd + B.sd)
    (f : ℕ → MvPolynomial (Fin A.sd) K) (g : ℕ → MvPolynomial (Fin B.sd) K)
    (hTA : ∀ pts, (∀ p ∈ pts, p.length = A.sd) → ∃ T, A.tabulate order pts (da, 0) = some T ∧
      Tabulates T A.dim order f (fun j i => (pts.getD j []).getD i 0))
    (hTB : ∀ pts, (∀ p ∈ pts, p.length = B.sd) → ∃ T, B.tabulate order pts (db, 0) = some T ∧
      Tabulates T B.dim order g (fun j i => (pts.getD j []).getD i 0)) :
    ∃ R, W.tabulate order points (Key.tup [da, db], 0) = some R ∧
      (∀ a, (Dict.get? R a).isSome ↔ a.length = A.sd + B.sd ∧ a.sum ≤ order) ∧
      ∀ a t, Dict.get? R a = some t → ∀ x y j p, x < A.dim → y < B.dim → points[j]? = some p →
        ∀ k, k < A.sd + B.sd → t (x * B.dim + y) k j =
          eval (fun i => p.getD i 0) (iterDeriv a (if k = 0 then -prodPoly (f x) (g y) else 0)) := by
  obtain ⟨R, h1, h2, h3⟩ := tensor_tabulate_spec A B hA hB hsd order points da db va vb gA gB ha hb dA dB hpts f g hTA hTB
  obtain ⟨new, n1, n2, n3⟩ := hdiv_scalar_first iA iB A B nodes W h mA mB fA order points _ R h1
  have neg : ∀ a : List ℕ, ∀ q : MvPolynomial (Fin (A.sd + B.sd)) K, iterDeriv a (-q) = -iterDeriv a q := by
    intro a q
    have := iterDeriv_linear (K := K) ({0} : Finset ℕ) (fun _ => -1) (fun _ => q) a
    simpa using this
  have zero : ∀ a : List ℕ, iterDeriv a (0 : MvPolynomial (Fin (A.sd + B.sd)) K) = 0 := by
    intro a
    have := iterDeriv_linear (K := K) (∅ : Finset ℕ) (fun _ => 0) (fun _ => (0 : MvPolynomial (Fin (A.sd + B.sd)) K)) a
    simpa using this
  refine ⟨new, n1, fun a => (n2 a).trans (h2 a), fun a t ht x y j p hx hy hp k hk => ?_⟩
  obtain ⟨t0, ht0⟩ := Option.isSome_iff_exists.1 ((n2 a).1 (by rw [ht]; rfl))
  obtain ⟨b1, b2⟩ := n3 a t0 t ht0 ht (x * B.dim + y) j
  by_cases hk0 : k = 0
  · subst hk0
    rw [if_pos rfl, neg, map_neg, ← h3 a t0 ht0 x y j p hx hy hp]
    simpa using b1 0 (by omega)
  · rw [if_neg hk0, zero, map_zero]
    exact b2 k (by omega) (Or.inr (by omega))

end

/-! ### Non-vacuity: `Hdiv` of an interval 0-form times an interval 1-form, `Hcurl` the same; and the refuted cases -/

/-- An element with one basis function, identically one, on the interval. -/
def exOne (sh : Option ℕ) : TabElem ℚ ℚ := ⟨ufcInterval, 1, 1, sh, fun order _ _ =>
  some ((jetKeys 1 order).map fun a => (a, fun _ _ _ => if a.sum = 0 then 1 else 0))⟩

example : (Hdiv ⟨some 0, .affine, 1⟩ ⟨some 1, .affine, 1⟩ (exOne none) (exOne none) []).isSome ∧
    (Hcurl ⟨some 0, .affine, 1⟩ ⟨some 1, .affine, 1⟩ (exOne none) (exOne none) []).isSome ∧
    (Hdiv ⟨some 0, .affine, 1⟩ ⟨some 0, .affine, 1⟩ (exOne none) (exOne none) []).isNone ∧
    (Hdiv ⟨none, .affine, 1⟩ ⟨some 1, .affine, 1⟩ (exOne none) (exOne none) []).isNone := by
  refine ⟨?_, ?_, ?_, ?_⟩
  · rw [(hdiv_accepts _ _ _ _ _).1]; exact ⟨Or.inl rfl, 0, 1, rfl, rfl, rfl⟩
  · rw [(hcurl_accepts _ _ _ _ _).1]; exact ⟨Or.inl rfl, 0, 1, rfl, rfl, rfl⟩
  · rfl
  · rfl

example : ((tensorTabulate (exOne none) (exOne none) 0 [[1 / 2, 1 / 3]] (Key.tup [.int 1, .int 1], 0)).isSome : Bool) = true := by
  decide +kernel

/-- The accepted element whose `tabulate` raises: a top form on an interval times a covariant element on a triangle. -/
example : (Hdiv ⟨some 1, .affine, 1⟩ ⟨some 1, .covariant, 2⟩ (exOne none) (exOne (some 2)) []).isSome := by
  rw [(hdiv_accepts _ _ _ _ _).1]; exact ⟨Or.inl rfl, 1, 1, rfl, rfl, rfl⟩

end FIAT
