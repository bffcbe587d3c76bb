/-
The loops of the triangle and tetrahedron expansion sets fill the table.
-/
import Verif.Lemmas.Expansions
import Verif.Lemmas.Combine

namespace FIAT

theorem tri_even (s : ℕ) : ∃ m, s * (s + 1) = 2 * m := by
  obtain ⟨m, hm⟩ := Nat.even_mul_succ_self s
  exact ⟨m, by omega⟩

theorem tri_succ (s : ℕ) : (s + 1) * (s + 1 + 1) / 2 = s * (s + 1) / 2 + (s + 1) := by
  rw [show (s + 1) * (s + 1 + 1) = s * (s + 1) + 2 * (s + 1) by ring, Nat.add_mul_div_left _ _ (by norm_num)]

theorem tri_mono {s t : ℕ} (h : s ≤ t) : s * (s + 1) / 2 ≤ t * (t + 1) / 2 :=
  Nat.div_le_div_right (Nat.mul_le_mul h (by omega))

theorem tet_six (s : ℕ) : ∃ m, s * (s + 1) * (s + 2) = 6 * m := by
  induction s with
  | zero => exact ⟨0, rfl⟩
  | succ s ih =>
    obtain ⟨m, hm⟩ := ih
    obtain ⟨k, hk⟩ := tri_even (s + 1)
    refine ⟨m + k, ?_⟩
    have : (s + 1) * (s + 1 + 1) * (s + 1 + 2) = s * (s + 1) * (s + 2) + 3 * ((s + 1) * (s + 1 + 1)) := by ring
    rw [this, hm, hk]; ring

theorem tet_succ (s : ℕ) : (s + 1) * (s + 1 + 1) * (s + 1 + 2) / 6 =
    s * (s + 1) * (s + 2) / 6 + (s + 1) * (s + 1 + 1) / 2 := by
  obtain ⟨m, hm⟩ := tet_six s
  obtain ⟨k, hk⟩ := tri_even (s + 1)
  have : (s + 1) * (s + 1 + 1) * (s + 1 + 2) = s * (s + 1) * (s + 2) + 3 * ((s + 1) * (s + 1 + 1)) := by ring
  rw [this, hm, hk]; omega

theorem tet_mono {s t : ℕ} (h : s ≤ t) : s * (s + 1) * (s + 2) / 6 ≤ t * (t + 1) * (t + 2) / 6 :=
  Nat.div_le_div_right (Nat.mul_le_mul (Nat.mul_le_mul h (by omega)) (by omega))

/-- `idx(p, q)` lies in the block of degree `p + q`. -/
theorem idx2_lt (p q k : ℕ) : idx2 p q < (k + 1) * (k + 2) / 2 ↔ p + q ≤ k := by
  unfold idx2
  constructor
  · intro h
    by_contra hc
    have := tri_mono (show k + 1 ≤ p + q by omega)
    have h2 : (k + 1) * (k + 1 + 1) = (k + 1) * (k + 2) := by ring
    omega
  · intro h
    have h1 := tri_succ (p + q)
    have h2 := tri_mono (show p + q + 1 ≤ k + 1 by omega)
    have h3 : (k + 1) * (k + 1 + 1) = (k + 1) * (k + 2) := by ring
    omega

theorem idx2_inj : Function.Injective (fun i : ℕ × ℕ => idx2 i.1 i.2) := by
  rintro ⟨p, q⟩ ⟨p', q'⟩ h
  simp only at h
  have h1 := (idx2_lt p q (p + q)).2 le_rfl
  rw [h, idx2_lt] at h1
  have h2 := (idx2_lt p' q' (p' + q')).2 le_rfl
  rw [← h, idx2_lt] at h2
  have e : p + q = p' + q' := by omega
  unfold idx2 at h
  rw [e] at h
  have : q = q' := by omega
  simp only [Prod.mk.injEq]; omega

theorem idx2_surj (m : ℕ) : ∃ p q, idx2 p q = m := by
  have key : ∀ n, m < (n + 1) * (n + 1 + 1) / 2 → ∃ p q, idx2 p q = m := by
    intro n
    induction n with
    | zero => intro h; exact ⟨0, 0, by simp at h; simp [idx2, h]⟩
    | succ n ih =>
      intro h
      by_cases hlt : m < (n + 1) * (n + 1 + 1) / 2
      · exact ih hlt
      · rw [tri_succ] at h
        refine ⟨n + 1 - (m - (n + 1) * (n + 1 + 1) / 2), m - (n + 1) * (n + 1 + 1) / 2, ?_⟩
        unfold idx2
        rw [Nat.sub_add_cancel (by omega)]; omega
  apply key m
  rw [tri_succ]; omega

theorem idx3_lt (p q r k : ℕ) : idx3 p q r < (k + 1) * (k + 2) * (k + 3) / 6 ↔ p + q + r ≤ k := by
  unfold idx3
  constructor
  · intro h
    by_contra hc
    have := tet_mono (show k + 1 ≤ p + q + r by omega)
    have h2 : (k + 1) * (k + 1 + 1) * (k + 1 + 2) = (k + 1) * (k + 2) * (k + 3) := by ring
    omega
  · intro h
    have h0 := tri_succ (q + r)
    have h0' := tri_mono (show q + r + 1 ≤ p + q + r + 1 by omega)
    have h1 := tet_succ (p + q + r)
    have h2 := tet_mono (show p + q + r + 1 ≤ k + 1 by omega)
    have h3 : (k + 1) * (k + 1 + 1) * (k + 1 + 2) = (k + 1) * (k + 2) * (k + 3) := by ring
    omega

theorem idx3_inj : Function.Injective (fun i : ℕ × ℕ × ℕ => idx3 i.1 i.2.1 i.2.2) := by
  rintro ⟨p, q, r⟩ ⟨p', q', r'⟩ h
  simp only at h
  have h1 := (idx3_lt p q r (p + q + r)).2 le_rfl
  rw [h, idx3_lt] at h1
  have h2 := (idx3_lt p' q' r' (p' + q' + r')).2 le_rfl
  rw [← h, idx3_lt] at h2
  have e : p + q + r = p' + q' + r' := by omega
  unfold idx3 at h
  rw [e] at h
  have h3 : (q, r) = (q', r') := idx2_inj (by unfold idx2; simp only; omega)
  simp only [Prod.mk.injEq] at h3 ⊢; omega

theorem idx3_surj (m : ℕ) : ∃ p q r, idx3 p q r = m := by
  have key : ∀ n, m < (n + 1) * (n + 1 + 1) * (n + 1 + 2) / 6 → ∃ p q r, idx3 p q r = m := by
    intro n
    induction n with
    | zero => intro h; exact ⟨0, 0, 0, by simp at h; simp [idx3, h]⟩
    | succ n ih =>
      intro h
      by_cases hlt : m < (n + 1) * (n + 1 + 1) * (n + 1 + 2) / 6
      · exact ih hlt
      · rw [tet_succ] at h
        obtain ⟨q, r, hqr⟩ := idx2_surj (m - (n + 1) * (n + 1 + 1) * (n + 1 + 2) / 6)
        have h4 : q + r ≤ n + 1 := by
          rw [← idx2_lt, hqr]
          have : (n + 1 + 1) * (n + 1 + 1 + 1) = (n + 1 + 1) * (n + 1 + 2) := by ring
          omega
        refine ⟨n + 1 - (q + r), q, r, ?_⟩
        unfold idx3
        unfold idx2 at hqr
        rw [show n + 1 - (q + r) + q + r = n + 1 by omega]; omega
  apply key m
  have : ∀ m, m < (m + 1) * (m + 1 + 1) * (m + 1 + 2) / 6 := by
    intro m
    induction m with
    | zero => norm_num
    | succ m ih => rw [tet_succ, tri_succ]; omega
  exact this m

/-- Sequencing of steps that may raise. -/
theorem bind_step {α β : Type} {o : Option α} {f : α → Option β} (Q : α → Prop) {P : β → Prop}
    (h : ∃ a, o = some a ∧ Q a) (hf : ∀ a, Q a → ∃ b, f a = some b ∧ P b) : ∃ b, (o >>= f) = some b ∧ P b := by
  obtain ⟨a, rfl, ha⟩ := h
  exact hf a ha

section
variable {A : Type} [CommRing A] [Algebra ℝ A]

local notation "↟" c => algebraMap ℝ A c

/-- The Dubiner polynomials before normalisation, in the coordinates of the default triangle. -/
noncomputable def triRaw (x y : A) (i : ℕ × ℕ) : A :=
  hJac 0 ((↟ (1 / 2)) * (1 + (↟ 2) * x + y)) ((↟ (1 / 2)) * (1 - y)) i.1 * hJac (2 * i.1 + 1) y 1 i.2

noncomputable def triScale (i : ℕ × ℕ) : ℝ := Real.sqrt ((i.1 + 1 / 2) * (i.1 + i.2 + 1))

private theorem jrc_leg (p : ℕ) (hp : 1 ≤ p) : jrc 0 0 p = ((2 * (p : ℝ) + 1) / (1 + p), 0, (p : ℝ) / (1 + p)) := by
  have h : (p : ℝ) ≠ 0 := by positivity
  have h1 : (1 : ℝ) + p ≠ 0 := by positivity
  have h2 : (p : ℝ) + 1 ≠ 0 := by positivity
  unfold jrc
  refine Prod.ext ?_ (Prod.ext ?_ ?_)
  · simp only [add_zero]; field_simp; ring
  · simp
  · simp only [add_zero]; field_simp; ring

private def triList (n : ℕ) : List (ℕ × ℕ) := (List.range (n + 1)).flatMap fun p => (List.range (n - p + 1)).map fun q => (p, q)

private theorem triList_mem (n : ℕ) (i : ℕ × ℕ) : i ∈ triList n ↔ i.1 + i.2 ≤ n := by
  obtain ⟨p, q⟩ := i
  simp only [triList, List.mem_flatMap, List.mem_range, List.mem_map, Prod.mk.injEq]
  constructor
  · rintro ⟨a, ha, b, hb, rfl, rfl⟩; omega
  · intro h; exact ⟨p, by omega, q, by omega, rfl, rfl⟩

private theorem triList_nodup (n : ℕ) : (triList n).Nodup := by
  unfold triList
  rw [List.nodup_flatMap]
  refine ⟨fun p _ => (List.nodup_range).map fun a b h => by simpa using h, ?_⟩
  refine List.Pairwise.imp_of_mem ?_ (List.nodup_range (n := n + 1))
  intro a b _ _ hab
  intro x hx hy
  simp only [List.mem_map] at hx hy
  obtain ⟨_, _, rfl⟩ := hx
  obtain ⟨_, _, h⟩ := hy
  exact hab (by simpa using (congrArg Prod.fst h).symm)

theorem tri_steps (M : Matrix (Fin 2) (Fin 2) ℝ) (b : Fin 2 → ℝ) (n : ℕ) (hn : n ≠ 0) (pts : Fin 2 → A) :
    ∃ r, triTabulate M b n pts = some r ∧ (r.length = (n + 1) * (n + 2) / 2 ∧
      r.Holds (fun i : ℕ × ℕ => idx2 i.1 i.2) (fun i => i.1 + i.2 ≤ n)
        (fun i => triRaw (refPt M b pts 0) (refPt M b pts 1) i * ↟ triScale i)) := by
  unfold triTabulate
  dsimp only
  generalize refPt M b pts 0 = x
  generalize refPt M b pts 1 = y
  have hlen : ∀ {i : ℕ × ℕ} {r : Slots A}, r.length = (n + 1) * (n + 2) / 2 → i.1 + i.2 ≤ n → idx2 i.1 i.2 < r.length := by
    intro i r hr hi
    rw [hr]; exact (idx2_lt _ _ _).2 hi
  set v : ℕ × ℕ → A := triRaw x y with hv
  -- constant
  refine bind_step (fun r => r.length = (n + 1) * (n + 2) / 2 ∧
    r.Holds (fun i : ℕ × ℕ => idx2 i.1 i.2) (fun i => i = (0, 0)) v) ?_ fun r hr => ?_
  · obtain ⟨r', h1, h2, h3⟩ := Slots.Holds.wr idx2_inj (r := List.replicate ((n + 1) * (n + 2) / 2) none)
      (S := fun _ => False) (S' := fun i => i = (0, 0)) (v := v) (fun i hi => hi.elim) (0, 0)
      (hlen (by simp) (by simp)) (1 + pts 0 - pts 0 + pts 1 - pts 1) (by simp [hv, triRaw, hJac]) (fun j hj => Or.inr hj)
    exact ⟨r', h1, by rw [h2]; simp, h3⟩
  rw [if_neg hn]
  refine bind_step (fun r => r.length = (n + 1) * (n + 2) / 2 ∧
    r.Holds (fun i : ℕ × ℕ => idx2 i.1 i.2) (fun i => i.2 = 0 ∧ i.1 ≤ 1) v) ?_ fun r hr => ?_
  · obtain ⟨r', h1, h2, h3⟩ := hr.2.wr idx2_inj (S' := fun i => i.2 = 0 ∧ i.1 ≤ 1) (1, 0)
      (hlen hr.1 (by simp; omega)) ((↟ (1 / 2)) * (1 + (↟ 2) * x + y)) (by
        simp only [hv, triRaw, hJac, zero_add, map_zero, zero_mul, add_zero, mul_one]
        rw [← mul_assoc, ← map_mul]; norm_num) (by rintro ⟨p, q⟩ ⟨h1, h2⟩; simp only [Prod.mk.injEq] at *; omega)
    exact ⟨r', h1, by rw [h2, hr.1], h3⟩
  -- q = 0
  refine bind_step (fun r => r.length = (n + 1) * (n + 2) / 2 ∧
    r.Holds (fun i : ℕ × ℕ => idx2 i.1 i.2) (fun i => i.2 = 0 ∧ i.1 ≤ n) v) ?_ fun r hr => ?_
  · obtain ⟨r', h1, h2⟩ := foldlM_range'_inv (fun k r => r.length = (n + 1) * (n + 2) / 2 ∧
      r.Holds (fun i : ℕ × ℕ => idx2 i.1 i.2) (fun i => i.2 = 0 ∧ i.1 ≤ k) v)
      (fun (results : Slots A) (p : ℕ) => do
        let a : ℝ := (2 * p + 1) / (1 + p)
        let u ← results.rd (idx2 p 0)
        let w ← results.rd (idx2 (p - 1) 0)
        results.wr (idx2 (p + 1) 0) ((↟ a) * ((↟ (1 / 2)) * (1 + (↟ 2) * x + y)) * u -
          (↟ (p / (1 + p) : ℝ)) * ((↟ (1 / 2)) * (1 - y)) ^ 2 * w)) 1 (n - 1) r hr (by
        intro p r hp1 hp2 hr
        have e1 := hr.2 (p, 0) ⟨rfl, le_rfl⟩
        have e2 := hr.2 (p - 1, 0) ⟨rfl, by simp⟩
        simp only at e1 e2
        simp only [e1, e2, Option.bind_eq_bind, Option.bind_some]
        obtain ⟨r', h1, h2, h3⟩ := hr.2.wr idx2_inj (S' := fun i => i.2 = 0 ∧ i.1 ≤ p + 1) (p + 1, 0)
          (hlen hr.1 (by simp; omega)) ((↟ ((2 * p + 1) / (1 + p) : ℝ)) * ((↟ (1 / 2)) * (1 + (↟ 2) * x + y)) * v (p, 0) -
            (↟ (p / (1 + p) : ℝ)) * ((↟ (1 / 2)) * (1 - y)) ^ 2 * v (p - 1, 0)) (by
            obtain ⟨p, rfl⟩ := Nat.exists_eq_add_of_le' hp1
            simp only [hv, triRaw, hJac, mul_one, Nat.add_sub_cancel]
            rw [jrc_leg (p + 1) (by omega)]
            simp only [map_zero, zero_mul, add_zero])
          (by rintro ⟨p, q⟩ ⟨h1, h2⟩; simp only [Prod.mk.injEq] at *; omega)
        exact ⟨r', h1, by rw [h2, hr.1], h3⟩)
    rw [show 1 + (n - 1) = n by omega] at h2
    exact ⟨r', h1, h2⟩
  -- q = 1
  refine bind_step (fun r => r.length = (n + 1) * (n + 2) / 2 ∧
    r.Holds (fun i : ℕ × ℕ => idx2 i.1 i.2) (fun i => (i.2 = 0 ∧ i.1 ≤ n) ∨ (i.2 = 1 ∧ i.1 < n)) v) ?_ fun r hr => ?_
  · refine foldlM_range_inv (fun k r => r.length = (n + 1) * (n + 2) / 2 ∧
      r.Holds (fun i : ℕ × ℕ => idx2 i.1 i.2) (fun i => (i.2 = 0 ∧ i.1 ≤ n) ∨ (i.2 = 1 ∧ i.1 < k)) v) _ n r
      ⟨hr.1, hr.2.mono (by rintro ⟨p, q⟩ h; simp only at *; omega)⟩ ?_
    intro p r hp hr
    have e1 := hr.2 (p, 0) (Or.inl ⟨rfl, by simp; omega⟩)
    simp only at e1
    simp only [e1, Option.bind_eq_bind, Option.bind_some]
    obtain ⟨r', h1, h2, h3⟩ := hr.2.wr idx2_inj
      (S' := fun i => (i.2 = 0 ∧ i.1 ≤ n) ∨ (i.2 = 1 ∧ i.1 < p + 1)) (p, 1)
      (hlen hr.1 (by simp; omega)) ((↟ (1 / 2)) * ((↟ (1 + 2 * p : ℝ)) + (↟ (3 + 2 * p : ℝ)) * y) * v (p, 0)) (by
        simp only [hv, triRaw, hJac, mul_one]
        rw [show (2 * (p : ℝ) + 1 + 2) = 3 + 2 * p by ring, show 2 * (p : ℝ) + 1 = 1 + 2 * p by ring]
        ring)
      (by rintro ⟨p, q⟩ h; simp only [Prod.mk.injEq] at *; omega)
    exact ⟨r', h1, by rw [h2, hr.1], h3⟩
  -- q ≥ 2
  refine bind_step (fun r => r.length = (n + 1) * (n + 2) / 2 ∧
    r.Holds (fun i : ℕ × ℕ => idx2 i.1 i.2) (fun i => i.1 + i.2 ≤ n) v) ?_ fun r hr => ?_
  · obtain ⟨r', h1, h2⟩ := foldlM_range_inv (fun k r => r.length = (n + 1) * (n + 2) / 2 ∧
      r.Holds (fun i : ℕ × ℕ => idx2 i.1 i.2) (fun i => (i.2 ≤ 1 ∧ i.1 + i.2 ≤ n) ∨ (i.1 < k ∧ i.1 + i.2 ≤ n)) v)
      (fun (results : Slots A) (p : ℕ) =>
        (List.range' 1 (n - p - 1)).foldlM (fun (results : Slots A) (q : ℕ) => do
        let c := jrc (2 * p + 1) 0 q
        let u ← results.rd (idx2 p q)
        let w ← results.rd (idx2 p (q - 1))
        results.wr (idx2 p (q + 1)) (((↟ c.1) * y + ↟ c.2.1) * u - (↟ c.2.2) * w)) results) (n - 1) r
      ⟨hr.1, hr.2.mono (by rintro ⟨p, q⟩ h; simp only at *; omega)⟩ (by
        intro p r hp hr
        obtain ⟨r', h1, h2⟩ := foldlM_range'_inv (fun k r => r.length = (n + 1) * (n + 2) / 2 ∧
          r.Holds (fun i : ℕ × ℕ => idx2 i.1 i.2) (fun i => (i.2 ≤ 1 ∧ i.1 + i.2 ≤ n) ∨ (i.1 < p ∧ i.1 + i.2 ≤ n) ∨
            (i.1 = p ∧ i.2 ≤ k)) v)
          (fun (results : Slots A) (q : ℕ) => do
            let c := jrc (2 * p + 1) 0 q
            let u ← results.rd (idx2 p q)
            let w ← results.rd (idx2 p (q - 1))
            results.wr (idx2 p (q + 1)) (((↟ c.1) * y + ↟ c.2.1) * u - (↟ c.2.2) * w)) 1 (n - p - 1) r
          ⟨hr.1, hr.2.mono (by rintro ⟨p, q⟩ h; simp only at *; omega)⟩ (by
            intro q r hq1 hq2 hr
            have e1 := hr.2 (p, q) (Or.inr (Or.inr ⟨rfl, le_rfl⟩))
            have e2 := hr.2 (p, q - 1) (Or.inr (Or.inr ⟨rfl, by simp⟩))
            simp only at e1 e2
            simp only [e1, e2, Option.bind_eq_bind, Option.bind_some]
            obtain ⟨r', h1, h2, h3⟩ := hr.2.wr idx2_inj
              (S' := fun i => (i.2 ≤ 1 ∧ i.1 + i.2 ≤ n) ∨ (i.1 < p ∧ i.1 + i.2 ≤ n) ∨ (i.1 = p ∧ i.2 ≤ q + 1)) (p, q + 1)
              (hlen hr.1 (by simp; omega)) (((↟ (jrc (2 * p + 1) 0 q).1) * y + ↟ (jrc (2 * p + 1) 0 q).2.1) * v (p, q) -
                (↟ (jrc (2 * p + 1) 0 q).2.2) * v (p, q - 1)) (by
                obtain ⟨q, rfl⟩ := Nat.exists_eq_add_of_le' hq1
                simp only [hv, triRaw, hJac, mul_one, Nat.add_sub_cancel, one_pow]
                ring)
              (by rintro ⟨p, q⟩ h; simp only [Prod.mk.injEq] at *; omega)
            exact ⟨r', h1, by rw [h2, hr.1], h3⟩)
        exact ⟨r', h1, h2.1, h2.2.mono (by rintro ⟨p, q⟩ h; simp only at *; omega)⟩)
    exact ⟨r', h1, h2.1, h2.2.mono (by rintro ⟨p, q⟩ h; simp only at *; omega)⟩
  -- normalisation
  classical
  obtain ⟨r', h1, h2, h3⟩ := hr.2.scale idx2_inj (fun i => ↟ triScale i) (triList n) (triList_nodup n)
    (fun i hi => (triList_mem n i).1 hi) (fun i hi => hlen hr.1 hi)
  refine ⟨r', ?_, by rw [h2, hr.1], h3.congr fun i hi => ?_⟩
  · rw [← h1, triList]
    simp only [foldlM_flatMap, List.foldlM_map, triScale]
    rfl
  · rw [if_pos ((triList_mem n i).2 hi)]


/-- The polynomials of the tetrahedron before normalisation, in the coordinates of the default tetrahedron. -/
noncomputable def tetRaw (x y z : A) (i : ℕ × ℕ × ℕ) : A :=
  hJac 0 ((↟ (1 / 2)) * ((↟ 2) + (↟ 2) * x + y + z)) (-((↟ (1 / 2)) * (y + z))) i.1 *
    hJac (2 * i.1 + 1) ((↟ (1 / 2)) * (1 + (↟ 2) * y + z)) ((↟ (1 / 2)) * (1 - z)) i.2.1 *
    hJac (2 * i.1 + 2 * i.2.1 + 2) z 1 i.2.2

noncomputable def tetScale (i : ℕ × ℕ × ℕ) : ℝ :=
  Real.sqrt ((i.1 + 1 / 2) * (i.1 + i.2.1 + 1) * (i.1 + i.2.1 + i.2.2 + 3 / 2))

private def tetList (n : ℕ) : List (ℕ × ℕ × ℕ) := (List.range (n + 1)).flatMap fun p =>
  (List.range (n - p + 1)).flatMap fun q => (List.range (n - p - q + 1)).map fun r => (p, q, r)

private theorem tetList_mem (n : ℕ) (i : ℕ × ℕ × ℕ) : i ∈ tetList n ↔ i.1 + i.2.1 + i.2.2 ≤ n := by
  obtain ⟨p, q, r⟩ := i
  simp only [tetList, List.mem_flatMap, List.mem_range, List.mem_map, Prod.mk.injEq]
  constructor
  · rintro ⟨a, ha, b, hb, c, hc, rfl, rfl, rfl⟩; omega
  · intro h; exact ⟨p, by omega, q, by omega, r, by omega, rfl, rfl, rfl⟩

private theorem tetList_nodup (n : ℕ) : (tetList n).Nodup := by
  unfold tetList
  rw [List.nodup_flatMap]
  refine ⟨fun p _ => ?_, ?_⟩
  · rw [List.nodup_flatMap]
    refine ⟨fun q _ => (List.nodup_range).map fun a b h => by simpa using h, ?_⟩
    refine List.Pairwise.imp_of_mem ?_ (List.nodup_range (n := n - p + 1))
    intro a b _ _ hab
    intro x hx hy
    simp only [List.mem_map] at hx hy
    obtain ⟨_, _, rfl⟩ := hx
    obtain ⟨_, _, h⟩ := hy
    exact hab (by simpa using (congrArg (fun t => t.2.1) h).symm)
  · refine List.Pairwise.imp_of_mem ?_ (List.nodup_range (n := n + 1))
    intro a b _ _ hab
    intro x hx hy
    simp only [List.mem_map, List.mem_flatMap] at hx hy
    obtain ⟨_, _, _, _, rfl⟩ := hx
    obtain ⟨_, _, _, _, h⟩ := hy
    exact hab (by simpa using (congrArg Prod.fst h).symm)

theorem tet_steps (M : Matrix (Fin 3) (Fin 3) ℝ) (b : Fin 3 → ℝ) (n : ℕ) (hn : n ≠ 0) (pts : Fin 3 → A) :
    ∃ r, tetTabulate M b n pts = some r ∧ (r.length = (n + 1) * (n + 2) * (n + 3) / 6 ∧
      r.Holds (fun i : ℕ × ℕ × ℕ => idx3 i.1 i.2.1 i.2.2) (fun i => i.1 + i.2.1 + i.2.2 ≤ n)
        (fun i => tetRaw (refPt M b pts 0) (refPt M b pts 1) (refPt M b pts 2) i * ↟ tetScale i)) := by
  unfold tetTabulate
  dsimp only
  generalize refPt M b pts 0 = x
  generalize refPt M b pts 1 = y
  generalize refPt M b pts 2 = z
  have hlen : ∀ {i : ℕ × ℕ × ℕ} {r : Slots A}, r.length = (n + 1) * (n + 2) * (n + 3) / 6 → i.1 + i.2.1 + i.2.2 ≤ n →
      idx3 i.1 i.2.1 i.2.2 < r.length := by
    intro i r hr hi
    rw [hr]; exact (idx3_lt _ _ _ _).2 hi
  set v : ℕ × ℕ × ℕ → A := tetRaw x y z with hv
  -- constant
  refine bind_step (fun r => r.length = (n + 1) * (n + 2) * (n + 3) / 6 ∧
    r.Holds (fun i : ℕ × ℕ × ℕ => idx3 i.1 i.2.1 i.2.2) (fun i => i = (0, 0, 0)) v) ?_ fun r hr => ?_
  · obtain ⟨r', h1, h2, h3⟩ := Slots.Holds.wr idx3_inj (r := List.replicate ((n + 1) * (n + 2) * (n + 3) / 6) none)
      (S := fun _ => False) (S' := fun i => i = (0, 0, 0)) (v := v) (fun i hi => hi.elim) (0, 0, 0)
      (hlen (by simp) (by simp)) (1 + pts 0 - pts 0 + pts 1 - pts 1 + pts 2 - pts 2) (by simp [hv, tetRaw, hJac])
      (fun j hj => Or.inr hj)
    exact ⟨r', h1, by rw [h2]; simp, h3⟩
  rw [if_neg hn]
  refine bind_step (fun r => r.length = (n + 1) * (n + 2) * (n + 3) / 6 ∧
    r.Holds (fun i : ℕ × ℕ × ℕ => idx3 i.1 i.2.1 i.2.2) (fun i => i.2.1 = 0 ∧ i.2.2 = 0 ∧ i.1 ≤ 1) v) ?_ fun r hr => ?_
  · obtain ⟨r', h1, h2, h3⟩ := hr.2.wr idx3_inj (S' := fun i => i.2.1 = 0 ∧ i.2.2 = 0 ∧ i.1 ≤ 1) (1, 0, 0)
      (hlen hr.1 (by simp; omega)) (((↟ (1 / 2)) * ((↟ 2) + (↟ 2) * x + y + z))) (by
        simp only [hv, tetRaw, hJac, zero_add, map_zero, zero_mul, add_zero, mul_one]
        rw [← mul_assoc, ← map_mul]; norm_num)
      (by rintro ⟨p, q, r⟩ h; simp only [Prod.mk.injEq] at *; omega)
    exact ⟨r', h1, by rw [h2, hr.1], h3⟩
  -- q = r = 0
  refine bind_step (fun r => r.length = (n + 1) * (n + 2) * (n + 3) / 6 ∧
    r.Holds (fun i : ℕ × ℕ × ℕ => idx3 i.1 i.2.1 i.2.2) (fun i => i.2.1 = 0 ∧ i.2.2 = 0 ∧ i.1 ≤ n) v) ?_ fun r hr => ?_
  · obtain ⟨r', h1, h2⟩ := foldlM_range'_inv (fun k r => r.length = (n + 1) * (n + 2) * (n + 3) / 6 ∧
      r.Holds (fun i : ℕ × ℕ × ℕ => idx3 i.1 i.2.1 i.2.2) (fun i => i.2.1 = 0 ∧ i.2.2 = 0 ∧ i.1 ≤ k) v)
      (fun (results : Slots A) (p : ℕ) => do
        let a1 : ℝ := (2 * p + 1) / (p + 1)
        let a2 : ℝ := p / (p + 1)
        let u ← results.rd (idx3 p 0 0)
        let w ← results.rd (idx3 (p - 1) 0 0)
        results.wr (idx3 (p + 1) 0 0) ((↟ a1) * ((↟ (1 / 2)) * ((↟ 2) + (↟ 2) * x + y + z)) * u -
          (↟ a2) * ((↟ (1 / 2)) * (y + z)) ^ 2 * w)) 1 (n - 1) r hr (by
        intro p r hp1 hp2 hr
        have e1 := hr.2 (p, 0, 0) ⟨rfl, rfl, le_rfl⟩
        have e2 := hr.2 (p - 1, 0, 0) ⟨rfl, rfl, by simp⟩
        simp only at e1 e2
        simp only [e1, e2, Option.bind_eq_bind, Option.bind_some]
        obtain ⟨r', h1, h2, h3⟩ := hr.2.wr idx3_inj (S' := fun i => i.2.1 = 0 ∧ i.2.2 = 0 ∧ i.1 ≤ (p + 1)) (p + 1, 0, 0)
          (hlen hr.1 (by simp; omega)) ((↟ ((2 * p + 1) / (p + 1) : ℝ)) * ((↟ (1 / 2)) * ((↟ 2) + (↟ 2) * x + y + z)) * v (p, 0, 0) -
            (↟ (p / (p + 1) : ℝ)) * ((↟ (1 / 2)) * (y + z)) ^ 2 * v (p - 1, 0, 0)) (by
            obtain ⟨p, rfl⟩ := Nat.exists_eq_add_of_le' hp1
            simp only [hv, tetRaw, hJac, mul_one, Nat.add_sub_cancel]
            rw [jrc_leg (p + 1) (by omega), add_comm (1 : ℝ), neg_sq]
            simp only [map_zero, zero_mul, add_zero])
          (by rintro ⟨p, q, r⟩ h; simp only [Prod.mk.injEq] at *; omega)
        exact ⟨r', h1, by rw [h2, hr.1], h3⟩)
    rw [show 1 + (n - 1) = n by omega] at h2
    exact ⟨r', h1, h2⟩
  -- q = 1, r = 0
  refine bind_step (fun r => r.length = (n + 1) * (n + 2) * (n + 3) / 6 ∧
    r.Holds (fun i : ℕ × ℕ × ℕ => idx3 i.1 i.2.1 i.2.2) (fun i => (i.2.1 ≤ 1 ∧ i.2.2 = 0 ∧ i.1 + i.2.1 ≤ n)) v) ?_ fun r hr => ?_
  · obtain ⟨r', h1, h2⟩ := foldlM_range_inv (fun k r => r.length = (n + 1) * (n + 2) * (n + 3) / 6 ∧
      r.Holds (fun i : ℕ × ℕ × ℕ => idx3 i.1 i.2.1 i.2.2) (fun i => (i.2.1 = 0 ∧ i.2.2 = 0 ∧ i.1 ≤ n) ∨ (i.2.1 = 1 ∧ i.2.2 = 0 ∧ i.1 < k)) v)
      (fun (results : Slots A) (p : ℕ) => do
        let u ← results.rd (idx3 p 0 0)
        results.wr (idx3 p 1 0) (u * ((↟ (p : ℝ)) * (1 + y) + (↟ (1 / 2)) * ((↟ 2) + (↟ 3) * y + z)))) n r
      ⟨hr.1, hr.2.mono (by rintro ⟨p, q, r⟩ h; simp only [Prod.mk.injEq] at *; omega)⟩ (by
        intro p r hp hr
        have e1 := hr.2 (p, 0, 0) (Or.inl ⟨rfl, rfl, by simp; omega⟩)
        simp only at e1
        simp only [e1, Option.bind_eq_bind, Option.bind_some]
        obtain ⟨r', h1, h2, h3⟩ := hr.2.wr idx3_inj (S' := fun i => (i.2.1 = 0 ∧ i.2.2 = 0 ∧ i.1 ≤ n) ∨ (i.2.1 = 1 ∧ i.2.2 = 0 ∧ i.1 < (p + 1))) (p, 1, 0)
          (hlen hr.1 (by simp; omega)) (v (p, 0, 0) * ((↟ (p : ℝ)) * (1 + y) + (↟ (1 / 2)) * ((↟ 2) + (↟ 3) * y + z))) (by
            simp only [hv, tetRaw, hJac, mul_one]
            have e : (↟ (p : ℝ)) * (1 + y) + (↟ (1 / 2)) * ((↟ 2) + (↟ 3) * y + z) =
              (↟ (1 / 2)) * ((↟ (2 * (p : ℝ) + 1 + 2)) * (((↟ (1 / 2)) * (1 + (↟ 2) * y + z))) + (↟ (2 * (p : ℝ) + 1)) * (((↟ (1 / 2)) * (1 - z)))) := by
              have h2 : (↟ (2 : ℝ)) = 2 := map_ofNat _ 2
              have h3 : (↟ (3 : ℝ)) = 3 := map_ofNat _ 3
              have hh : (↟ (1 / 2 : ℝ)) * 2 = 1 := by rw [← h2, ← map_mul]; norm_num
              simp only [map_add, map_mul, map_one, h2, h3]
              generalize (↟ (1 / 2 : ℝ)) = c at hh ⊢
              generalize (↟ (p : ℝ)) = P
              linear_combination (-P * (1 + y) * (2 * c + 1) - c * (3 * y + z + 2)) * hh
            rw [e])
          (by rintro ⟨p, q, r⟩ h; simp only [Prod.mk.injEq] at *; omega)
        exact ⟨r', h1, by rw [h2, hr.1], h3⟩)
    exact ⟨r', h1, h2.1, h2.2.mono (by rintro ⟨p, q, r⟩ h; simp only [Prod.mk.injEq] at *; omega)⟩
  -- q ≥ 2, r = 0
  refine bind_step (fun r => r.length = (n + 1) * (n + 2) * (n + 3) / 6 ∧
    r.Holds (fun i : ℕ × ℕ × ℕ => idx3 i.1 i.2.1 i.2.2) (fun i => i.2.2 = 0 ∧ i.1 + i.2.1 ≤ n) v) ?_ fun r hr => ?_
  · obtain ⟨r', h1, h2⟩ := foldlM_range_inv (fun k r => r.length = (n + 1) * (n + 2) * (n + 3) / 6 ∧
      r.Holds (fun i : ℕ × ℕ × ℕ => idx3 i.1 i.2.1 i.2.2) (fun i => (i.2.1 ≤ 1 ∧ i.2.2 = 0 ∧ i.1 + i.2.1 ≤ n) ∨ (i.2.2 = 0 ∧ i.1 + i.2.1 ≤ n ∧ i.1 < k)) v)
      (fun (results : Slots A) (p : ℕ) => (List.range' 1 (n - p - 1)).foldlM (fun (results : Slots A) (q : ℕ) => do
            let c := jrc (2 * p + 1) 0 q
            let qmcoeff := (↟ c.1) * ((↟ (1 / 2)) * (1 + (↟ 2) * y + z)) + (↟ c.2.1) * ((↟ (1 / 2)) * (1 - z))
            let qm1coeff := (↟ c.2.2) * ((↟ (1 / 2)) * (1 - z)) ^ 2
            let u ← results.rd (idx3 p q 0)
            let w ← results.rd (idx3 p (q - 1) 0)
            results.wr (idx3 p (q + 1) 0) (qmcoeff * u - qm1coeff * w)) results) (n - 1) r
      ⟨hr.1, hr.2.mono (by rintro ⟨p, q, r⟩ h; simp only [Prod.mk.injEq] at *; omega)⟩ (by
        intro p r hp hr
        obtain ⟨r', h1, h2⟩ := foldlM_range'_inv (fun k r => r.length = (n + 1) * (n + 2) * (n + 3) / 6 ∧
      r.Holds (fun i : ℕ × ℕ × ℕ => idx3 i.1 i.2.1 i.2.2) (fun i => (i.2.1 ≤ 1 ∧ i.2.2 = 0 ∧ i.1 + i.2.1 ≤ n) ∨ (i.2.2 = 0 ∧ i.1 + i.2.1 ≤ n ∧ i.1 < p) ∨ (i.2.2 = 0 ∧ i.1 = p ∧ i.2.1 ≤ k)) v)
          (fun (results : Slots A) (q : ℕ) => do
            let c := jrc (2 * p + 1) 0 q
            let qmcoeff := (↟ c.1) * ((↟ (1 / 2)) * (1 + (↟ 2) * y + z)) + (↟ c.2.1) * ((↟ (1 / 2)) * (1 - z))
            let qm1coeff := (↟ c.2.2) * ((↟ (1 / 2)) * (1 - z)) ^ 2
            let u ← results.rd (idx3 p q 0)
            let w ← results.rd (idx3 p (q - 1) 0)
            results.wr (idx3 p (q + 1) 0) (qmcoeff * u - qm1coeff * w)) 1 (n - p - 1) r
          ⟨hr.1, hr.2.mono (by rintro ⟨p, q, r⟩ h; simp only [Prod.mk.injEq] at *; omega)⟩ (by
            intro q r hq1 hq2 hr
            have e1 := hr.2 (p, q, 0) (Or.inr (Or.inr ⟨rfl, rfl, le_rfl⟩))
            have e2 := hr.2 (p, q - 1, 0) (Or.inr (Or.inr ⟨rfl, rfl, by simp⟩))
            simp only at e1 e2
            simp only [e1, e2, Option.bind_eq_bind, Option.bind_some]
            obtain ⟨r', h1, h2, h3⟩ := hr.2.wr idx3_inj (S' := fun i => (i.2.1 ≤ 1 ∧ i.2.2 = 0 ∧ i.1 + i.2.1 ≤ n) ∨ (i.2.2 = 0 ∧ i.1 + i.2.1 ≤ n ∧ i.1 < p) ∨ (i.2.2 = 0 ∧ i.1 = p ∧ i.2.1 ≤ (q + 1))) (p, q + 1, 0)
              (hlen hr.1 (by simp; omega)) (((↟ (jrc (2 * p + 1) 0 q).1) * ((↟ (1 / 2)) * (1 + (↟ 2) * y + z)) + (↟ (jrc (2 * p + 1) 0 q).2.1) * ((↟ (1 / 2)) * (1 - z))) * v (p, q, 0) -
                (↟ (jrc (2 * p + 1) 0 q).2.2) * ((↟ (1 / 2)) * (1 - z)) ^ 2 * v (p, q - 1, 0)) (by
                obtain ⟨q, rfl⟩ := Nat.exists_eq_add_of_le' hq1
                simp only [hv, tetRaw, hJac, mul_one, Nat.add_sub_cancel]
                ring)
              (by rintro ⟨p, q, r⟩ h; simp only [Prod.mk.injEq] at *; omega)
            exact ⟨r', h1, by rw [h2, hr.1], h3⟩)
        exact ⟨r', h1, h2.1, h2.2.mono (by rintro ⟨p, q, r⟩ h; simp only [Prod.mk.injEq] at *; omega)⟩)
    exact ⟨r', h1, h2.1, h2.2.mono (by rintro ⟨p, q, r⟩ h; simp only [Prod.mk.injEq] at *; omega)⟩
  -- r = 1
  refine bind_step (fun r => r.length = (n + 1) * (n + 2) * (n + 3) / 6 ∧
    r.Holds (fun i : ℕ × ℕ × ℕ => idx3 i.1 i.2.1 i.2.2) (fun i => i.2.2 ≤ 1 ∧ i.1 + i.2.1 + i.2.2 ≤ n) v) ?_ fun r hr => ?_
  · obtain ⟨r', h1, h2⟩ := foldlM_range_inv (fun k r => r.length = (n + 1) * (n + 2) * (n + 3) / 6 ∧
      r.Holds (fun i : ℕ × ℕ × ℕ => idx3 i.1 i.2.1 i.2.2) (fun i => (i.2.2 = 0 ∧ i.1 + i.2.1 ≤ n) ∨ (i.2.2 = 1 ∧ i.1 + i.2.1 < n ∧ i.1 < k)) v)
      (fun (results : Slots A) (p : ℕ) => (List.range (n - p)).foldlM (fun (results : Slots A) (q : ℕ) => do
            let u ← results.rd (idx3 p q 0)
            results.wr (idx3 p q 1) (u * ((↟ (1 + p + q : ℝ)) + (↟ (2 + q + p : ℝ)) * z))) results) n r
      ⟨hr.1, hr.2.mono (by rintro ⟨p, q, r⟩ h; simp only [Prod.mk.injEq] at *; omega)⟩ (by
        intro p r hp hr
        obtain ⟨r', h1, h2⟩ := foldlM_range_inv (fun k r => r.length = (n + 1) * (n + 2) * (n + 3) / 6 ∧
      r.Holds (fun i : ℕ × ℕ × ℕ => idx3 i.1 i.2.1 i.2.2) (fun i => (i.2.2 = 0 ∧ i.1 + i.2.1 ≤ n) ∨ (i.2.2 = 1 ∧ i.1 + i.2.1 < n ∧ i.1 < p) ∨ (i.2.2 = 1 ∧ i.1 = p ∧ i.2.1 < k)) v)
          (fun (results : Slots A) (q : ℕ) => do
            let u ← results.rd (idx3 p q 0)
            results.wr (idx3 p q 1) (u * ((↟ (1 + p + q : ℝ)) + (↟ (2 + q + p : ℝ)) * z))) (n - p) r
          ⟨hr.1, hr.2.mono (by rintro ⟨p, q, r⟩ h; simp only [Prod.mk.injEq] at *; omega)⟩ (by
            intro q r hq hr
            have e1 := hr.2 (p, q, 0) (Or.inl ⟨rfl, by simp; omega⟩)
            simp only at e1
            simp only [e1, Option.bind_eq_bind, Option.bind_some]
            obtain ⟨r', h1, h2, h3⟩ := hr.2.wr idx3_inj (S' := fun i => (i.2.2 = 0 ∧ i.1 + i.2.1 ≤ n) ∨ (i.2.2 = 1 ∧ i.1 + i.2.1 < n ∧ i.1 < p) ∨ (i.2.2 = 1 ∧ i.1 = p ∧ i.2.1 < (q + 1))) (p, q, 1)
              (hlen hr.1 (by simp; omega)) (v (p, q, 0) * ((↟ (1 + p + q : ℝ)) + (↟ (2 + q + p : ℝ)) * z)) (by
                simp only [hv, tetRaw, hJac, mul_one]
                have e : (↟ (1 + p + q : ℝ)) + (↟ (2 + q + p : ℝ)) * z =
                  (↟ (1 / 2)) * ((↟ (2 * (p : ℝ) + 2 * q + 2 + 2)) * z + ↟ (2 * (p : ℝ) + 2 * q + 2)) := by
                  rw [show (2 * (p : ℝ) + 2 * q + 2 + 2) = 2 * (2 + q + p) by ring,
                    show (2 * (p : ℝ) + 2 * q + 2) = 2 * (1 + p + q) by ring, map_mul _ (2 : ℝ), map_mul _ (2 : ℝ)]
                  have hh : (↟ (1 / 2 : ℝ)) * (↟ (2 : ℝ)) = 1 := by rw [← map_mul]; norm_num
                  linear_combination (-(↟ (1 + p + q : ℝ)) - (↟ (2 + q + p : ℝ)) * z) * hh
                rw [e])
              (by rintro ⟨p, q, r⟩ h; simp only [Prod.mk.injEq] at *; omega)
            exact ⟨r', h1, by rw [h2, hr.1], h3⟩)
        exact ⟨r', h1, h2.1, h2.2.mono (by rintro ⟨p, q, r⟩ h; simp only [Prod.mk.injEq] at *; omega)⟩)
    exact ⟨r', h1, h2.1, h2.2.mono (by rintro ⟨p, q, r⟩ h; simp only [Prod.mk.injEq] at *; omega)⟩
  -- r ≥ 2
  refine bind_step (fun r => r.length = (n + 1) * (n + 2) * (n + 3) / 6 ∧
    r.Holds (fun i : ℕ × ℕ × ℕ => idx3 i.1 i.2.1 i.2.2) (fun i => i.1 + i.2.1 + i.2.2 ≤ n) v) ?_ fun r hr => ?_
  · obtain ⟨r', h1, h2⟩ := foldlM_range_inv (fun k r => r.length = (n + 1) * (n + 2) * (n + 3) / 6 ∧
      r.Holds (fun i : ℕ × ℕ × ℕ => idx3 i.1 i.2.1 i.2.2) (fun i => (i.2.2 ≤ 1 ∧ i.1 + i.2.1 + i.2.2 ≤ n) ∨ (i.1 < k ∧ i.1 + i.2.1 + i.2.2 ≤ n)) v)
      (fun (results : Slots A) (p : ℕ) => (List.range (n - p - 1)).foldlM (fun (results : Slots A) (q : ℕ) =>
        (List.range' 1 (n - p - q - 1)).foldlM (fun (results : Slots A) (r : ℕ) => do
            let c := jrc (2 * p + 2 * q + 2) 0 r
            let u ← results.rd (idx3 p q r)
            let w ← results.rd (idx3 p q (r - 1))
            results.wr (idx3 p q (r + 1)) (((↟ c.1) * z + ↟ c.2.1) * u - (↟ c.2.2) * w)) results) results) (n - 1) r
      ⟨hr.1, hr.2.mono (by rintro ⟨p, q, r⟩ h; simp only [Prod.mk.injEq] at *; omega)⟩ (by
        intro p r hp hr
        obtain ⟨r', h1, h2⟩ := foldlM_range_inv (fun k r => r.length = (n + 1) * (n + 2) * (n + 3) / 6 ∧
      r.Holds (fun i : ℕ × ℕ × ℕ => idx3 i.1 i.2.1 i.2.2) (fun i => (i.2.2 ≤ 1 ∧ i.1 + i.2.1 + i.2.2 ≤ n) ∨ (i.1 < p ∧ i.1 + i.2.1 + i.2.2 ≤ n) ∨ (i.1 = p ∧ i.2.1 < k ∧ i.1 + i.2.1 + i.2.2 ≤ n)) v)
          (fun (results : Slots A) (q : ℕ) =>
            (List.range' 1 (n - p - q - 1)).foldlM (fun (results : Slots A) (r : ℕ) => do
            let c := jrc (2 * p + 2 * q + 2) 0 r
            let u ← results.rd (idx3 p q r)
            let w ← results.rd (idx3 p q (r - 1))
            results.wr (idx3 p q (r + 1)) (((↟ c.1) * z + ↟ c.2.1) * u - (↟ c.2.2) * w)) results) (n - p - 1) r
          ⟨hr.1, hr.2.mono (by rintro ⟨p, q, r⟩ h; simp only [Prod.mk.injEq] at *; omega)⟩ (by
            intro q r hq hr
            obtain ⟨r', h1, h2⟩ := foldlM_range'_inv (fun k r => r.length = (n + 1) * (n + 2) * (n + 3) / 6 ∧
      r.Holds (fun i : ℕ × ℕ × ℕ => idx3 i.1 i.2.1 i.2.2) (fun i => (i.2.2 ≤ 1 ∧ i.1 + i.2.1 + i.2.2 ≤ n) ∨ (i.1 < p ∧ i.1 + i.2.1 + i.2.2 ≤ n) ∨ (i.1 = p ∧ i.2.1 < q ∧ i.1 + i.2.1 + i.2.2 ≤ n) ∨
        (i.1 = p ∧ i.2.1 = q ∧ i.2.2 ≤ k)) v)
              (fun (results : Slots A) (r : ℕ) => do
            let c := jrc (2 * p + 2 * q + 2) 0 r
            let u ← results.rd (idx3 p q r)
            let w ← results.rd (idx3 p q (r - 1))
            results.wr (idx3 p q (r + 1)) (((↟ c.1) * z + ↟ c.2.1) * u - (↟ c.2.2) * w)) 1 (n - p - q - 1) r
              ⟨hr.1, hr.2.mono (by rintro ⟨p, q, r⟩ h; simp only [Prod.mk.injEq] at *; omega)⟩ (by
                intro t r ht1 ht2 hr
                have e1 := hr.2 (p, q, t) (Or.inr (Or.inr (Or.inr ⟨rfl, rfl, le_rfl⟩)))
                have e2 := hr.2 (p, q, t - 1) (Or.inr (Or.inr (Or.inr ⟨rfl, rfl, by simp⟩)))
                simp only at e1 e2
                simp only [e1, e2, Option.bind_eq_bind, Option.bind_some]
                obtain ⟨r', h1, h2, h3⟩ := hr.2.wr idx3_inj (S' := fun i => (i.2.2 ≤ 1 ∧ i.1 + i.2.1 + i.2.2 ≤ n) ∨ (i.1 < p ∧ i.1 + i.2.1 + i.2.2 ≤ n) ∨ (i.1 = p ∧ i.2.1 < q ∧ i.1 + i.2.1 + i.2.2 ≤ n) ∨
        (i.1 = p ∧ i.2.1 = q ∧ i.2.2 ≤ (t + 1))) (p, q, t + 1)
                  (hlen hr.1 (by simp; omega)) (((↟ (jrc (2 * p + 2 * q + 2) 0 t).1) * z + ↟ (jrc (2 * p + 2 * q + 2) 0 t).2.1) * v (p, q, t) -
                    (↟ (jrc (2 * p + 2 * q + 2) 0 t).2.2) * v (p, q, t - 1)) (by
                    obtain ⟨t, rfl⟩ := Nat.exists_eq_add_of_le' ht1
                    simp only [hv, tetRaw, hJac, mul_one, Nat.add_sub_cancel, one_pow]
                    ring)
                  (by rintro ⟨p, q, r⟩ h; simp only [Prod.mk.injEq] at *; omega)
                exact ⟨r', h1, by rw [h2, hr.1], h3⟩)
            exact ⟨r', h1, h2.1, h2.2.mono (by rintro ⟨p, q, r⟩ h; simp only [Prod.mk.injEq] at *; omega)⟩)
        exact ⟨r', h1, h2.1, h2.2.mono (by rintro ⟨p, q, r⟩ h; simp only [Prod.mk.injEq] at *; omega)⟩)
    exact ⟨r', h1, h2.1, h2.2.mono (by rintro ⟨p, q, r⟩ h; simp only [Prod.mk.injEq] at *; omega)⟩
  -- normalisation
  classical
  obtain ⟨r', h1, h2, h3⟩ := hr.2.scale idx3_inj (fun i => ↟ tetScale i) (tetList n) (tetList_nodup n)
    (fun i hi => (tetList_mem n i).1 hi) (fun i hi => hlen hr.1 hi)
  refine ⟨r', ?_, by rw [h2, hr.1], h3.congr fun i hi => ?_⟩
  · rw [← h1, tetList]
    simp only [foldlM_flatMap, List.foldlM_map, tetScale]
    rfl
  · rw [if_pos ((tetList_mem n i).2 hi)]

end
end FIAT
