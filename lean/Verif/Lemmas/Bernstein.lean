/-
Lemmas on the Bernstein model: the chain rule, iterated derivatives of monomials, the derivative tensor.
-/
import Verif.Model.Bernstein
import Verif.Props.Combinat
import Verif.Props.PolySet
import Verif.Props.Cell
import Mathlib.Data.Nat.Choose.Multinomial
import Mathlib.Data.Nat.Factorial.BigOperators

namespace FIAT
open MvPolynomial

theorem mapM_some_map {α β : Type} (l : List α) (f : α → Option β) (g : α → β) (h : ∀ x ∈ l, f x = some (g x)) :
    l.mapM f = some (l.map g) := by
  induction l with
  | nil => rfl
  | cons a l ih =>
    rw [List.mapM_cons, h a (by simp), ih fun x hx => h x (by simp [hx])]
    rfl

section
variable {K : Type} [Field K] {d N : ℕ}

/-- Chain rule for an affine substitution. -/
theorem pderiv_aeval {n : ℕ} (lam : Fin n → MvPolynomial (Fin d) K) (c : Fin d) (A : Fin n → K)
    (h : ∀ i, pderiv c (lam i) = C (A i)) (r : MvPolynomial (Fin n) K) :
    pderiv c (aeval lam r) = ∑ i, C (A i) * aeval lam (pderiv i r) := by
  induction r using MvPolynomial.induction_on with
  | C a => simp [pderiv_C]
  | add p q hp hq => simp only [map_add, hp, hq, mul_add, Finset.sum_add_distrib]
  | mul_X p i hp =>
    simp only [map_mul, aeval_X, pderiv_mul, hp, h]
    simp only [pderiv_X, map_add, map_mul, aeval_X, mul_add, Finset.sum_add_distrib, Finset.sum_mul]
    congr 1
    · refine Finset.sum_congr rfl fun j _ => ?_; ring
    · rw [Finset.sum_eq_single i]
      · simp; ring
      · intro j _ hj
        rw [Pi.single_apply, if_neg (fun h => hj h.symm)]; simp
      · simp

/-- The derivative along a list of coordinates, the last one outermost. -/
noncomputable def dlist {n : ℕ} (ds : List (Fin n)) (q : MvPolynomial (Fin n) K) : MvPolynomial (Fin n) K :=
  ds.foldl (fun r i => pderiv i r) q

theorem dlist_append {n : ℕ} (ds : List (Fin n)) (i : Fin n) (q : MvPolynomial (Fin n) K) :
    dlist (ds ++ [i]) q = pderiv i (dlist ds q) := by simp [dlist]

noncomputable def cnt {n : ℕ} (ds : List (Fin n)) : Fin n →₀ ℕ := Finsupp.equivFunOnFinite.symm fun i => ds.count i

theorem cnt_apply {n : ℕ} (ds : List (Fin n)) (i : Fin n) : cnt ds i = ds.count i := rfl

theorem dlist_monomial {n : ℕ} (ds : List (Fin n)) (s : Fin n →₀ ℕ) (a : K) :
    dlist ds (monomial s a) = monomial (s - cnt ds) (a * ∏ i, ((s i).descFactorial (ds.count i) : K)) := by
  induction ds using List.reverseRecOn with
  | nil =>
    have : cnt ([] : List (Fin n)) = 0 := by ext i; simp [cnt_apply]
    simp [dlist, this]
  | append_singleton ds j ih =>
    rw [dlist_append, ih, pderiv_monomial]
    refine congrArg₂ (fun a b => monomial a b) ?_ ?_
    · ext i
      simp only [Finsupp.coe_tsub, Pi.sub_apply, cnt_apply, List.count_append, List.count_singleton, Finsupp.single_apply]
      by_cases h : j = i
      · subst h
        simp only [if_true, beq_self_eq_true]; omega
      · have hb : (j == i) = false := by simpa using h
        simp only [if_neg h, hb, Bool.false_eq_true, if_false]; omega
    · rw [mul_assoc]
      congr 1
      rw [← Finset.mul_prod_erase _ _ (Finset.mem_univ j),
        ← Finset.mul_prod_erase _ (fun i => (((s i).descFactorial ((ds ++ [j]).count i) : ℕ) : K)) (Finset.mem_univ j)]
      have h1 : ∏ x ∈ Finset.univ.erase j, (((s x).descFactorial ((ds ++ [j]).count x) : ℕ) : K) =
          ∏ x ∈ Finset.univ.erase j, (((s x).descFactorial (ds.count x) : ℕ) : K) := by
        refine Finset.prod_congr rfl fun x hx => ?_
        have : j ≠ x := (Finset.ne_of_mem_erase hx).symm
        simp [List.count_append, List.count_singleton, this]
      rw [h1]
      simp only [Finsupp.coe_tsub, Pi.sub_apply, cnt_apply, List.count_append, List.count_singleton, beq_self_eq_true, if_true,
        Nat.descFactorial_succ, Nat.cast_mul]
      ring

/-- The index list of the tensor entry is the vector of multiplicities. -/
theorem countAlpha_eq (ds : List (Fin (d + 1))) : countAlpha d ds = List.ofFn fun i => ds.count i := by
  induction ds using List.reverseRecOn with
  | nil => simp [countAlpha, List.replicate_succ]
  | append_singleton ds j ih =>
    unfold countAlpha at ih ⊢
    rw [List.foldl_append, List.foldl_cons, List.foldl_nil, ih]
    refine List.ext_getElem (by simp) fun i h1 h2 => ?_
    simp only [List.length_set, List.length_ofFn] at h1
    rw [List.getElem_set, List.getElem_ofFn, List.getElem_ofFn, List.count_append, List.count_singleton]
    have hg : (List.ofFn fun i => ds.count i).getD (j : ℕ) 0 = ds.count j := by
      rw [List.getD_eq_getElem?_getD, List.getElem?_eq_getElem (by simp only [List.length_ofFn]; exact j.2), List.getElem_ofFn]; rfl
    by_cases h : (j : ℕ) = i
    · subst h
      rw [if_pos rfl, hg]; simp
    · have : j ≠ ⟨i, h1⟩ := fun e => h (by rw [e])
      simp [h, this]

theorem sum_counts (ds : List (Fin (d + 1))) : (List.ofFn fun i => ds.count i).sum = ds.length := by
  rw [List.sum_ofFn]
  induction ds with
  | nil => simp
  | cons j ds ih =>
    simp only [List.count_cons, Finset.sum_add_distrib, List.length_cons, ih]
    simp

theorem countAlpha_mem (ds : List (Fin (d + 1))) : countAlpha d ds ∈ mis (d + 1) ds.length := by
  rw [mis_mem _ _ (by omega), countAlpha_eq]
  exact ⟨by simp, sum_counts ds⟩

/-- The flattened column indices of a derivative. -/
def flatIdx (α : List ℕ) (D : ℕ) : List (Fin D) := (List.finRange D).flatMap fun (i : Fin D) => List.replicate (α.getD (i : ℕ) 0) i

theorem foldl_replicate {β γ : Type} (f : γ → β → γ) (k : ℕ) (b : β) (v : γ) :
    (List.replicate k b).foldl f v = (fun v => f v b)^[k] v := by
  induction k generalizing v with
  | zero => rfl
  | succ k ih => rw [List.replicate_succ, List.foldl_cons, ih, Function.iterate_succ_apply]

theorem iterDeriv_flat (α : List ℕ) (p : MvPolynomial (Fin d) K) : iterDeriv α p = dlist (flatIdx α d) p := by
  unfold iterDeriv dlist flatIdx
  rw [List.foldl_flatMap]
  congr 1
  funext q i
  rw [foldl_replicate]

theorem flatIdx_length (α : List ℕ) (h : α.length = d) : (flatIdx α d).length = α.sum := by
  subst h
  unfold flatIdx
  rw [List.length_flatMap]
  simp only [List.length_replicate]
  conv_rhs => rw [← List.ofFn_get α, List.sum_ofFn]
  rw [← List.ofFn_eq_map, List.sum_ofFn]
  refine Finset.sum_congr rfl fun i _ => ?_
  simp

theorem contractAlpha_flat (R2B : Matrix (Fin (d + 1)) (Fin (d + 1)) K) (α : List ℕ) (hα : α.length = d)
    (V : List (Fin (d + 1)) → Fin N → K) :
    contractAlpha R2B α V = (flatIdx α d).foldl (fun v (c : Fin d) => contractLast R2B c.castSucc v) V := by
  subst hα
  unfold contractAlpha flatIdx
  rw [List.foldl_flatMap]
  have h : α.zipIdx = (List.finRange α.length).map fun (i : Fin α.length) => (α.getD (i : ℕ) 0, (i : ℕ)) := by
    apply List.ext_getElem (by simp)
    intro i h1 h2
    simp at h1
    simp [h1]
  rw [h, List.foldl_map]
  congr 1
  funext v i
  dsimp only
  rw [foldl_replicate]
  congr 2
  apply Fin.ext
  simp [Fin.ofNat, Nat.mod_eq_of_lt (Nat.lt_succ_of_lt i.2)]

/-- Contracting a tensor of derivatives with the gradients gives derivatives in the reference coordinates. -/
theorem contract_spec (R2B : Matrix (Fin (d + 1)) (Fin (d + 1)) K) (lam : Fin (d + 1) → MvPolynomial (Fin d) K)
    (hlam : ∀ (c : Fin d) i, pderiv c (lam i) = C (R2B i c.castSucc)) (q : MvPolynomial (Fin (d + 1)) K)
    (x : Fin N → Fin d → K) (s : K) (L : List (Fin d)) (G : MvPolynomial (Fin d) K →ₗ[K] MvPolynomial (Fin d) K)
    (V : List (Fin (d + 1)) → Fin N → K)
    (hV : ∀ ds : List (Fin (d + 1)), ds.length = L.length → ∀ p, V ds p = s * eval (x p) (G (aeval lam (dlist ds q)))) (p : Fin N) :
    L.foldl (fun v (c : Fin d) => contractLast R2B c.castSucc v) V [] p =
      s * eval (x p) (G (L.foldr (fun c r => pderiv c r) (aeval lam q))) := by
  induction L generalizing V G with
  | nil => simpa [dlist] using hV [] rfl p
  | cons c L ih =>
    rw [List.foldl_cons, List.foldr_cons]
    refine ih (G ∘ₗ (pderiv c : Derivation K _ _).toLinearMap) _ fun ds hds p => ?_
    unfold contractLast
    have h1 : ∀ i, V (ds ++ [i]) p = s * eval (x p) (G (aeval lam (pderiv i (dlist ds q)))) := by
      intro i
      rw [hV (ds ++ [i]) (by simp [hds]), dlist_append]
    simp only [h1]
    have h2 : ∀ i, R2B i c.castSucc * (s * eval (x p) (G (aeval lam (pderiv i (dlist ds q))))) =
        s * eval (x p) (G (C (R2B i c.castSucc) * aeval lam (pderiv i (dlist ds q)))) := by
      intro i
      rw [C_mul', map_smul, smul_eval]; ring
    rw [Finset.sum_congr rfl fun i _ => h2 i, ← Finset.mul_sum, ← map_sum, ← map_sum,
      ← pderiv_aeval lam c (fun i => R2B i c.castSucc) (hlam c)]
    rfl

theorem foldr_dlist (L : List (Fin d)) (p : MvPolynomial (Fin d) K) : L.foldr (fun c r => pderiv c r) p = dlist L p := by
  have h1 : L.foldr (fun c r => pderiv c r) p = dlist L.reverse p := by
    unfold dlist; rw [List.foldl_reverse]
  rw [h1]
  unfold dlist
  haveI : RightCommutative (fun (r : MvPolynomial (Fin d) K) (i : Fin d) => pderiv i r) :=
    ⟨fun r i j => pderiv_comm _ _ _⟩
  exact (List.reverse_perm L).foldl_eq p

end

section db
variable {K : Type} [Field K] [CharZero K] {d N : ℕ}

theorem foldl_div (l : List ℤ) (c : ℕ) :
    l.foldl (fun (c : ℕ) (k : ℤ) => c / k.toNat.factorial) c = c / (l.map fun k => k.toNat.factorial).prod := by
  induction l generalizing c with
  | nil => simp
  | cons a l ih => rw [List.foldl_cons, ih, List.map_cons, List.prod_cons, Nat.div_div_eq_div_mul]

/-- The Bernstein polynomial in the barycentric coordinates. -/
noncomputable def bmono (d : ℕ) (ks : List ℕ) : MvPolynomial (Fin (d + 1)) K :=
  monomial (Finsupp.equivFunOnFinite.symm fun i : Fin (d + 1) => ks.getD (i : ℕ) 0)
    ((ks.sum.factorial : K) / ∏ i : Fin (d + 1), ((ks.getD i 0).factorial : K))

theorem bernsteinDb_spec (B : Fin N → Fin (d + 1) → K) (ks : List ℕ) (hk : ks.length = d + 1) (ds : List (Fin (d + 1))) :
    bernsteinDb B ks (countAlpha d ds) = some fun p =>
      (if ds.length = ks.sum then (1 : K) / (ks.sum.factorial : K) else 1) * eval (B p) (dlist ds (bmono d ks)) := by
  obtain ⟨k, rfl⟩ : ∃ k : Fin (d + 1) → ℕ, ks = List.ofFn k :=
    ⟨fun i => ks.getD i 0, by
      refine List.ext_getElem (by simp [hk]) fun i h1 h2 => ?_
      rw [List.getElem_ofFn, List.getD_eq_getElem?_getD, List.getElem?_eq_getElem h1]; rfl⟩
  have hget : ∀ i : Fin (d + 1), (List.ofFn k).getD i 0 = k i := by
    intro i
    rw [List.getD_eq_getElem?_getD, List.getElem?_eq_getElem (by simp only [List.length_ofFn]; exact i.2), List.getElem_ofFn]; rfl
  have hsum : (List.ofFn k).sum = ∑ i, k i := List.sum_ofFn
  have hlen : ds.length = ∑ i, ds.count i := by rw [← sum_counts, List.sum_ofFn]
  set n := (List.ofFn k).sum with hn
  have hls : List.zipWith (fun (k a : ℕ) => (k : ℤ) - (a : ℤ)) (List.ofFn k) (countAlpha d ds) =
      List.ofFn fun i => (k i : ℤ) - (ds.count i : ℤ) := by
    rw [countAlpha_eq]
    refine List.ext_getElem (by simp) fun i h1 h2 => ?_
    simp only [List.getElem_zipWith, List.getElem_ofFn]
  have hev : ∀ p, eval (B p) (dlist ds (bmono d (List.ofFn k) : MvPolynomial (Fin (d + 1)) K)) =
      (n.factorial : K) / (∏ i, ((k i).factorial : K)) * (∏ i, ((k i).descFactorial (ds.count i) : K)) *
        ∏ i, B p i ^ (k i - ds.count i) := by
    intro p
    unfold bmono
    rw [dlist_monomial, eval_monomial, Finsupp.prod_fintype _ _ (fun i => pow_zero _)]
    simp only [hget, ← hn]
    rfl
  have hpos : ∀ m : ℕ, (m.factorial : K) ≠ 0 := fun m => Nat.cast_ne_zero.2 (Nat.factorial_ne_zero m)
  unfold bernsteinDb
  rw [if_neg (by rw [countAlpha_eq]; simp), hls]
  dsimp only
  by_cases h1 : ∃ i, k i < ds.count i
  · obtain ⟨i, hi⟩ := h1
    rw [if_pos (by
      rw [List.any_eq_true]
      exact ⟨(k i : ℤ) - ds.count i, (List.mem_ofFn' _ _).2 ⟨i, rfl⟩, by simpa using hi⟩)]
    congr 1
    funext p
    have hz : ∏ i, ((k i).descFactorial (ds.count i) : K) = 0 :=
      Finset.prod_eq_zero (Finset.mem_univ i) (by rw [Nat.descFactorial_of_lt hi]; simp)
    rw [hev, hz]
    ring
  · push_neg at h1
    rw [if_neg (by
      rw [List.any_eq_true]
      rintro ⟨z, hz, hz0⟩
      obtain ⟨i, rfl⟩ := (List.mem_ofFn' _ _).1 hz
      have := h1 i
      simp at hz0
      omega)]
    have hfac : ∀ i, ((k i - ds.count i).factorial : K) * ((k i).descFactorial (ds.count i) : K) = ((k i).factorial : K) := by
      intro i
      rw [← Nat.cast_mul, Nat.factorial_mul_descFactorial (h1 i)]
    have hcoef : (n.factorial : K) / (∏ i, ((k i).factorial : K)) * (∏ i, ((k i).descFactorial (ds.count i) : K)) =
        (n.factorial : K) / ∏ i, ((k i - ds.count i).factorial : K) := by
      rw [div_mul_eq_mul_div, div_eq_div_iff (Finset.prod_ne_zero_iff.2 fun i _ => hpos _)
        (Finset.prod_ne_zero_iff.2 fun i _ => hpos _), mul_assoc, ← Finset.prod_mul_distrib]
      congr 1
      exact Finset.prod_congr rfl fun i _ => by rw [← hfac i]; ring
    by_cases h2 : ∀ i, k i = ds.count i
    · rw [if_pos (by
        rw [List.all_eq_true]
        intro z hz
        obtain ⟨i, rfl⟩ := (List.mem_ofFn' _ _).1 hz
        simp [h2 i])]
      congr 1
      funext p
      rw [hev, hcoef, if_pos (by rw [hlen, hsum]; exact Finset.sum_congr rfl fun i _ => (h2 i).symm)]
      have : ∀ i, k i - ds.count i = 0 := fun i => by rw [h2 i]; omega
      simp only [this, Nat.factorial_zero, Nat.cast_one, Finset.prod_const_one, div_one, pow_zero, mul_one]
      rw [one_div, inv_mul_cancel₀ (hpos n)]
    · have h3 : ¬ (List.ofFn fun i => (k i : ℤ) - (ds.count i : ℤ)).all (fun k => k = 0) = true := by
        rw [List.all_eq_true]
        intro h
        refine h2 fun i => ?_
        have := h _ ((List.mem_ofFn' _ _).2 ⟨i, rfl⟩)
        simp at this
        omega
      rw [if_neg h3]
      congr 1
      funext p
      have hne : ds.length ≠ n := by
        intro e
        rw [hlen, hsum] at e
        push_neg at h2
        obtain ⟨i, hi⟩ := h2
        have := Finset.sum_lt_sum (s := Finset.univ) (fun i _ => h1 i) ⟨i, Finset.mem_univ i, lt_of_le_of_ne (h1 i) (Ne.symm hi)⟩
        omega
      rw [hev, hcoef, if_neg hne, one_mul, foldl_div]
      have hprod : ((List.ofFn fun i => (k i : ℤ) - (ds.count i : ℤ)).map fun z => z.toNat.factorial).prod =
          ∏ i, (k i - ds.count i).factorial := by
        rw [List.map_ofFn, List.prod_ofFn]
        refine Finset.prod_congr rfl fun i _ => ?_
        simp only [Function.comp_apply]
        congr 1
        have := h1 i
        omega
      rw [hprod]
      have hdvd : (∏ i, (k i - ds.count i).factorial) ∣ n.factorial := by
        refine (Nat.prod_factorial_dvd_factorial_sum Finset.univ fun i => k i - ds.count i).trans ?_
        refine Nat.factorial_dvd_factorial ?_
        rw [hsum]
        exact Finset.sum_le_sum fun i _ => Nat.sub_le _ _
      rw [Nat.cast_div hdvd (by
        rw [Nat.cast_prod]
        exact Finset.prod_ne_zero_iff.2 fun i _ => hpos _), Nat.cast_prod]
      congr 1
      refine Finset.prod_congr rfl fun i _ => ?_
      congr 1
      rw [List.getD_eq_getElem?_getD, List.getElem?_eq_getElem (by simp only [List.length_ofFn]; exact i.2), List.getElem_ofFn]
      have := h1 i
      simp

end db
end FIAT
