/-
C27, C29: quadrature rules: construction, linearity, products, affine images; exactness of the
Gauss line rule and of the collapsed triangle and tetrahedron rules on every positively oriented simplex.

Integrals are Lebesgue integrals over the convex hull of the vertices of the cell.
-/
import Verif.Lemmas.SimplexMap
import Verif.Props.Gauss
import Verif.Props.Affine
import Verif.Lemmas.Product

namespace FIAT
open MeasureTheory

section C27
variable {K P : Type} [Field K]

/-- C27: a rule is built exactly when there are as many weights as points, and holds these. -/
theorem qrule_mk_iff (pts : List P) (wts : List K) (R : QRule K P) :
    QRule.mk? pts wts = some R ↔ wts.length = pts.length ∧ R.pts = pts ∧ R.wts = wts := by
  unfold QRule.mk?
  by_cases h : wts.length = pts.length
  · simp only [h, ne_eq, not_true_eq_false, if_false, Option.some.injEq, true_and]
    constructor
    · rintro rfl; exact ⟨rfl, rfl⟩
    · rintro ⟨h1, h2⟩; cases R; simp_all
  · simp [h]

theorem qrule_rejects (pts : List P) (wts : List K) (h : wts.length ≠ pts.length) :
    (QRule.mk? pts wts : Option (QRule K P)) = none := by simp [QRule.mk?, h]

/-- C27: `integrate` is linear in the integrand. -/
theorem integrate_linear (R : QRule K P) (a b : K) (f g : P → K) :
    R.integrate (fun x => a * f x + b * g x) = a * R.integrate f + b * R.integrate g := by
  unfold QRule.integrate
  rw [← List.sum_map_mul_left, ← List.sum_map_mul_left, ← List.sum_map_add]
  congr 1
  refine List.map_congr_left fun x _ => ?_
  ring

/-- The integrand `f_1(x_1) * f_2(x_2) * ...` of a tensor-product rule: the coordinates of a point are cut into
pieces of the lengths of the factors. -/
def prodIntegrand : List (ℕ × (List K → K)) → List K → K
  | [], _ => 1
  | (n, f) :: fs, z => f (z.take n) * prodIntegrand fs (z.drop n)

private theorem pyProduct_map {α β : Type} (f : α → β) (ls : List (List α)) :
    pyProduct (ls.map (List.map f)) = (pyProduct ls).map (List.map f) := by
  induction ls with
  | nil => rfl
  | cons l ls ih =>
    rw [List.map_cons, pyProduct, pyProduct, ih, List.flatMap_map, List.map_flatMap]
    congr 1
    funext x
    simp [List.map_map, Function.comp_def]

private theorem prod_sum (rs : List (List (List K × K))) (fs : List (ℕ × (List K → K))) (hl : fs.length = rs.length)
    (hn : ∀ k (h1 : k < rs.length) (h2 : k < fs.length), ∀ xw ∈ rs[k], xw.1.length = fs[k].1) :
    ((pyProduct rs).map fun l => (l.map Prod.snd).prod * prodIntegrand fs (l.map Prod.fst).flatten).sum =
      (List.zipWith (fun r (f : ℕ × (List K → K)) => (r.map fun xw => xw.2 * f.2 xw.1).sum) rs fs).prod := by
  induction rs generalizing fs with
  | nil =>
    cases fs with
    | nil => simp [pyProduct, prodIntegrand]
    | cons f fs => simp at hl
  | cons r rs ih =>
    cases fs with
    | nil => simp at hl
    | cons f fs =>
      have ih' := ih fs (by simpa using hl) (fun k h1 h2 => by
        have := hn (k + 1) (by simpa using h1) (by simpa using h2); simpa using this)
      rw [pyProduct, sum_flatMap, List.zipWith_cons_cons, List.prod_cons, ← ih', ← List.sum_map_mul_right]
      congr 1
      refine List.map_congr_left fun xw hxw => ?_
      rw [List.map_map, ← List.sum_map_mul_left]
      congr 1
      refine List.map_congr_left fun l _ => ?_
      have h0 : xw.1.length = f.1 := by
        have := hn 0 (by simp) (by simp) xw (by simpa using hxw); simpa using this
      obtain ⟨n, f⟩ := f
      simp only [Function.comp_apply, List.map_cons, List.prod_cons, List.flatten_cons, prodIntegrand]
      simp only at h0
      rw [List.take_left' h0, List.drop_left' h0]
      ring

/-- C27: the tensor-product rule exists, its points are the concatenations, and the integral of a product of
functions of the factors' coordinates is the product of the factors' integrals. -/
theorem tensor_quadrature_integrate (rules : List (QRule K (List K))) (fs : List (ℕ × (List K → K)))
    (hw : ∀ R ∈ rules, R.wts.length = R.pts.length) (hl : fs.length = rules.length)
    (hn : ∀ k (h1 : k < rules.length) (h2 : k < fs.length), ∀ x ∈ rules[k].pts, x.length = fs[k].1) :
    ∃ T, tensorQuadrature rules = some T ∧
      T.pts.length = (rules.map fun R => R.pts.length).prod ∧
      T.integrate (prodIntegrand fs) =
        (List.zipWith (fun (R : QRule K (List K)) (f : ℕ × (List K → K)) => R.integrate f.2) rules fs).prod := by
  set rs := rules.map fun R : QRule K (List K) => R.pts.zip R.wts with hrs
  have hp : rules.map QRule.pts = rs.map (List.map Prod.fst) := by
    rw [hrs, List.map_map]
    refine List.map_congr_left fun R hR => ?_
    rw [Function.comp_apply, List.map_fst_zip (by rw [hw R hR])]
  have hws : rules.map QRule.wts = rs.map (List.map Prod.snd) := by
    rw [hrs, List.map_map]
    refine List.map_congr_left fun R hR => ?_
    rw [Function.comp_apply, List.map_snd_zip (by rw [hw R hR])]
  have hpl : ((pyProduct (rules.map QRule.pts)).map List.flatten).length = (rules.map fun R => R.pts.length).prod := by
    rw [List.length_map, length_pyProduct, List.map_map]; rfl
  refine ⟨⟨(pyProduct (rules.map QRule.pts)).map List.flatten, (pyProduct (rules.map QRule.wts)).map List.prod⟩,
    ?_, hpl, ?_⟩
  · unfold tensorQuadrature
    rw [qrule_mk_iff]
    refine ⟨?_, rfl, rfl⟩
    rw [hp, hws, pyProduct_map, pyProduct_map]; simp
  · unfold QRule.integrate
    simp only
    rw [hp, hws, pyProduct_map, pyProduct_map, List.map_map, List.map_map, List.zip_map', List.map_map]
    have := prod_sum rs fs (by rw [hl, hrs, List.length_map]) (fun k h1 h2 xw hxw => by
      refine hn k (by simpa [hrs] using h1) h2 xw.1 ?_
      have : xw ∈ (rules[k]'(by simpa [hrs] using h1)).pts.zip (rules[k]'(by simpa [hrs] using h1)).wts := by
        simpa [hrs] using hxw
      exact (List.of_mem_zip this).1)
    refine Eq.trans (Eq.trans ?_ this) ?_
    · rfl
    · rw [hrs, List.zipWith_map_left]

/-- C27, two factors: `f(x) g(y)` integrates to the product of the integrals. -/
theorem tensor_quadrature_two (R S : QRule K (List K)) (hR : R.wts.length = R.pts.length)
    (hS : S.wts.length = S.pts.length) (n : ℕ) (hn : ∀ x ∈ R.pts, x.length = n) (k : ℕ)
    (hk : ∀ x ∈ S.pts, x.length = k) (f g : List K → K) :
    ∃ T, tensorQuadrature [R, S] = some T ∧
      T.integrate (fun z => f (z.take n) * g ((z.drop n).take k)) = R.integrate f * S.integrate g := by
  obtain ⟨T, h1, -, h2⟩ := tensor_quadrature_integrate [R, S] [(n, f), (k, g)] (by simp [hR, hS]) rfl (by
    intro i h1 h2
    match i, h1, h2 with
    | 0, _, _ => simpa using hn
    | 1, _, _ => simpa using hk)
  refine ⟨T, h1, ?_⟩
  have e : (fun z : List K => f (z.take n) * g ((z.drop n).take k)) = prodIntegrand [(n, f), (k, g)] := by
    funext z; simp [prodIntegrand]
  rw [e, h2]
  simp

example : ∃ T, tensorQuadrature [(⟨[[0], [1]], [1/2, 1/2]⟩ : QRule ℚ (List ℚ)), ⟨[[0], [1/2], [1]], [1/6, 2/3, 1/6]⟩] = some T ∧
    T.integrate (fun z => (z.take 1).sum * (((z.drop 1).take 1).sum) ^ 2) = 1 / 6 := by
  obtain ⟨T, h1, h2⟩ := tensor_quadrature_two (⟨[[0], [1]], [1/2, 1/2]⟩ : QRule ℚ (List ℚ))
    ⟨[[0], [1/2], [1]], [1/6, 2/3, 1/6]⟩ rfl rfl 1 (by simp) 1 (by simp) (fun z => z.sum) (fun z => z.sum ^ 2)
  refine ⟨T, h1, ?_⟩
  rw [h2]
  norm_num [QRule.integrate]

end C27

section mapped
variable {d : ℕ}

/-- C27: mapping a rule from the default simplex to the cell with vertices `v`: the map `x ↦ A x + b` takes the
default vertices to the vertices of the cell, and the mapped rule integrates `f` to `det A` times what the
reference rule gives for the pull-back. -/
theorem mapped_rule_spec (v : Fin (d + 1) → Fin d → ℝ) (pts : List (Fin d → ℝ)) (ws : List ℝ)
    (hl : ws.length = pts.length) :
    ∃ (A : Matrix (Fin d) (Fin d) ℝ) (b : Fin d → ℝ) (R : _), mappedRule (List.ofFn v) pts ws = some R ∧ (∀ i, A.mulVec (dvert d i) + b = v i) ∧
      R.pts = pts.map (fun x => A.mulVec x + b) ∧ R.wts = ws.map (A.det * ·) ∧
      ∀ f, R.integrate f = A.det * (⟨pts, ws⟩ : QRule ℝ (Fin d → ℝ)).integrate fun x => f (A.mulVec x + b) := by
  obtain ⟨A, b, h1, h2, -⟩ := make_affine_mapping_spec (dvert d) v (dvert_independent d)
  refine ⟨A, b, ⟨pts.map (affineApply A b), ws.map (A.det * ·)⟩, ?_, h2, rfl, rfl, fun f => ?_⟩
  · unfold mappedRule
    rw [defaultVerts_eq, h1]
    simp [QRule.mk?, hl]
  · unfold QRule.integrate
    simp only
    rw [List.zip_map, List.map_map, ← List.sum_map_mul_left]
    congr 1
    refine List.map_congr_left fun x _ => ?_
    simp only [Function.comp_apply, Prod.map_fst, Prod.map_snd, affineApply]
    ring

private theorem pullback (A : Matrix (Fin d) (Fin d) ℝ) (b : Fin d → ℝ) (p : MvPolynomial (Fin d) ℝ) :
    ∃ q : MvPolynomial (Fin d) ℝ, q.totalDegree ≤ p.totalDegree ∧
      ∀ x, MvPolynomial.eval x q = MvPolynomial.eval (A.mulVec x + b) p := by
  let g : Fin d → MvPolynomial (Fin d) ℝ := fun i => ∑ j, MvPolynomial.C (A i j) * MvPolynomial.X j + MvPolynomial.C (b i)
  refine ⟨MvPolynomial.aeval g p, totalDegree_aeval_le_deg g ?_ p, fun x => ?_⟩
  · intro i
    refine (MvPolynomial.totalDegree_add _ _).trans (max_le ?_ (by simp))
    refine MvPolynomial.totalDegree_finsetSum_le fun j _ => ?_
    refine (MvPolynomial.totalDegree_mul _ _).trans ?_
    simp
  · have : ((MvPolynomial.aeval x).comp (MvPolynomial.aeval g) : MvPolynomial (Fin d) ℝ →ₐ[ℝ] ℝ) =
        MvPolynomial.aeval (A.mulVec x + b) := by
      apply MvPolynomial.algHom_ext
      intro i
      simp [g, Matrix.mulVec, dotProduct]
    have h := DFunLike.congr_fun this p
    simpa [AlgHom.comp_apply, MvPolynomial.aeval_eq_eval] using h

private theorem mapped_exact (v : Fin (d + 1) → Fin d → ℝ) (hv : (edgeMatrix v).det ≠ 0) (pts : List (Fin d → ℝ))
    (ws : List ℝ) (hl : ws.length = pts.length) (N : ℕ) (hex : ExactOn d N (pts.zip ws)) :
    ∃ R, mappedRule (List.ofFn v) pts ws = some R ∧ ∀ p : MvPolynomial (Fin d) ℝ, p.totalDegree ≤ N →
      R.integrate (fun x => MvPolynomial.eval x p) =
        SignType.sign (edgeMatrix v).det * ∫ x in convexHull ℝ (Set.range v), MvPolynomial.eval x p := by
  obtain ⟨A, b, R, h1, h2, -, -, h3⟩ := mapped_rule_spec v pts ws hl
  refine ⟨R, h1, fun p hp => ?_⟩
  have hd := det_of_map v A b h2
  have hA : A.det ≠ 0 := by rintro h; rw [h, mul_zero] at hd; exact hv hd
  obtain ⟨q, hq1, hq2⟩ := pullback A b p
  rw [h3, integral_simplex v A b h2 hA, ← mul_assoc]
  have hs : (SignType.sign (edgeMatrix v).det : ℝ) * |A.det| = A.det := by
    rw [hd, sign_mul, sign_pos (by positivity), one_mul]
    exact sign_mul_abs _
  rw [hs]
  congr 1
  have := hex q (hq1.trans hp)
  simp only [hq2] at this
  exact this

end mapped

/-! ### The Gauss-Jacobi rules as exact rules for the weight `(1-z)^d` -/

private theorem gj_len (a b : ℝ) (m : ℕ) (xs : List ℝ) :
    (gaussJacobiRule a b m xs).wts.length = (gaussJacobiRule a b m xs).pts.length := by
  simp [gaussJacobiRule, gaussJacobiWeights]

private theorem gj_exact (a m : ℕ) (hm : 1 ≤ m) (xs : List ℝ) (hx : GaussNodes a 0 m xs) (q : Polynomial ℝ)
    (hq : q.natDegree ≤ 2 * m - 1) :
    (((gaussJacobiRule a 0 m xs).pts.zip (gaussJacobiRule a 0 m xs).wts).map fun zw => zw.2 * q.eval zw.1).sum =
      ∫ z in (-1 : ℝ)..1, (1 - z) ^ a * q.eval z := by
  have := gauss_jacobi_exact a 0 m hm xs (by simpa using hx) q hq
  simp only [Nat.cast_zero, pow_zero, mul_one] at this
  exact this

private theorem line_exact (m : ℕ) (hm : 1 ≤ m) (xs : List ℝ) (hx : GaussNodes 0 0 m xs) :
    ExactOn 1 (2 * m - 1) (((gaussJacobiRule 0 0 m xs).pts.map fun x _ => x).zip (gaussJacobiRule 0 0 m xs).wts) := by
  have h := exactOn_succ 0 (2 * m - 1) _ (exactOn_zero _)
    ((gaussJacobiRule 0 0 m xs).pts.zip (gaussJacobiRule 0 0 m xs).wts)
    (fun q hq => by
      have := gj_exact 0 m hm xs (by simpa using hx) q hq
      simpa using this)
  intro p hp
  rw [← h p hp]
  rw [List.zip_map_left, List.map_map, sum_flatMap]
  congr 1
  refine List.map_congr_left fun zw _ => ?_
  simp only [Function.comp_apply, List.map_cons, List.map_nil, List.sum_cons, List.sum_nil, add_zero, Prod.map_fst,
    Prod.map_snd, pow_zero, div_one, mul_one, id]
  congr 2

private theorem zip_flatMap {α β γ δ : Type} (l : List α) (l' : List β) (m : α → List γ) (m' : β → List δ)
    (h : l.length = l'.length) (hm : ∀ a b, (m a).length = (m' b).length) :
    (l.flatMap m).zip (l'.flatMap m') = (l.zip l').flatMap fun ab => (m ab.1).zip (m' ab.2) := by
  induction l generalizing l' with
  | nil => rfl
  | cons a l ih =>
    cases l' with
    | nil => simp at h
    | cons b l' =>
      rw [List.flatMap_cons, List.flatMap_cons, List.zip_cons_cons, List.flatMap_cons, List.zip_append (hm a b),
        ih l' (by simpa using h)]

private theorem sum_comm_list {α β : Type} (l : List α) (m : List β) (f : α → β → ℝ) :
    (l.map fun a => (m.map fun b => f a b).sum).sum = (m.map fun b => (l.map fun a => f a b).sum).sum := by
  induction l with
  | nil => simp
  | cons a l ih => simp only [List.map_cons, List.sum_cons, ih, List.sum_map_add]

private theorem triangle_exact (m : ℕ) (hm : 1 ≤ m) (xs ys : List ℝ) (hx : GaussNodes 0 0 m xs)
    (hy : GaussNodes 1 0 m ys) :
    ExactOn 2 (2 * m - 1)
      (((gaussJacobiRule 0 0 m xs).pts.flatMap fun x => (gaussJacobiRule 1 0 m ys).pts.map fun y => xiTriangle x y).zip
        ((gaussJacobiRule 0 0 m xs).wts.flatMap fun w1 => (gaussJacobiRule 1 0 m ys).wts.map fun w2 => 1 / 2 * w1 * w2)) := by
  have h := exactOn_succ 1 (2 * m - 1) _ (line_exact m hm xs hx)
    ((gaussJacobiRule 1 0 m ys).pts.zip (gaussJacobiRule 1 0 m ys).wts)
    (fun q hq => by
      have := gj_exact 1 m hm ys (by simpa using hy) q hq
      simpa using this)
  intro p hp
  rw [← h p hp, zip_flatMap _ _ _ _ (gj_len 0 0 m xs).symm (by simp [gj_len]), sum_flatMap, sum_flatMap]
  simp only [List.zip_map, List.map_map]
  simp only [List.zip_map_left, List.map_map]
  rw [sum_comm_list]
  congr 1
  refine List.map_congr_left fun yw _ => ?_
  congr 1
  refine List.map_congr_left fun xw _ => ?_
  simp only [Function.comp_apply, Prod.map_fst, Prod.map_snd, id]
  congr 1
  · ring
  · apply congrArg (fun x => MvPolynomial.eval x p)
    funext i
    fin_cases i
    · show 1 / 2 * (1 + xw.1) * (1 - yw.1) - 1 = _
      have : (⟨0, by decide⟩ : Fin 2) = Fin.castSucc 0 := rfl
      show _ = Fin.snoc (α := fun _ => ℝ) _ _ (⟨0, by decide⟩ : Fin 2)
      rw [this, Fin.snoc_castSucc]; ring
    · show yw.1 = Fin.snoc (α := fun _ => ℝ) _ _ (Fin.last 1)
      rw [Fin.snoc_last]

private theorem tetrahedron_exact (m : ℕ) (hm : 1 ≤ m) (xs ys zs : List ℝ) (hx : GaussNodes 0 0 m xs)
    (hy : GaussNodes 1 0 m ys) (hz : GaussNodes 2 0 m zs) :
    ExactOn 3 (2 * m - 1)
      (((gaussJacobiRule 0 0 m xs).pts.flatMap fun x => (gaussJacobiRule 1 0 m ys).pts.flatMap fun y =>
          (gaussJacobiRule 2 0 m zs).pts.map fun z => xiTetrahedron x y z).zip
        ((gaussJacobiRule 0 0 m xs).wts.flatMap fun w1 => (gaussJacobiRule 1 0 m ys).wts.flatMap fun w2 =>
          (gaussJacobiRule 2 0 m zs).wts.map fun w3 => 1 / 8 * w1 * w2 * w3)) := by
  have h := exactOn_succ 2 (2 * m - 1) _ (triangle_exact m hm xs ys hx hy)
    ((gaussJacobiRule 2 0 m zs).pts.zip (gaussJacobiRule 2 0 m zs).wts)
    (fun q hq => by
      have := gj_exact 2 m hm zs (by simpa using hz) q hq
      simpa using this)
  have hlen : ∀ (g : ℝ → ℝ → Fin 3 → ℝ) (k : ℝ → ℝ → ℝ),
      ((gaussJacobiRule 1 0 m ys).pts.flatMap fun y => (gaussJacobiRule 2 0 m zs).pts.map fun z => g y z).length =
        ((gaussJacobiRule 1 0 m ys).wts.flatMap fun w2 => (gaussJacobiRule 2 0 m zs).wts.map fun w3 => k w2 w3).length := by
    intro g k
    simp [List.length_flatMap, gj_len]
  intro p hp
  rw [← h p hp, zip_flatMap _ _ _ _ (gj_len 0 0 m xs).symm (fun a b => hlen _ _), sum_flatMap, sum_flatMap,
    zip_flatMap _ _ _ _ (gj_len 0 0 m xs).symm (by simp [gj_len])]
  simp only [List.map_map, sum_flatMap]
  rw [sum_comm_list ((gaussJacobiRule 2 0 m zs).pts.zip (gaussJacobiRule 2 0 m zs).wts)]
  congr 1
  refine List.map_congr_left fun xw _ => ?_
  rw [zip_flatMap _ _ _ _ (gj_len 1 0 m ys).symm (by simp [gj_len]), sum_flatMap]
  simp only [List.zip_map, List.map_map]
  rw [sum_comm_list ((gaussJacobiRule 2 0 m zs).pts.zip (gaussJacobiRule 2 0 m zs).wts)]
  congr 1
  refine List.map_congr_left fun yw _ => ?_
  congr 1
  refine List.map_congr_left fun zw _ => ?_
  simp only [Function.comp_apply, Prod.map_fst, Prod.map_snd]
  congr 1
  · ring
  · apply congrArg (fun x => MvPolynomial.eval x p)
    funext i
    fin_cases i
    · show 1 / 4 * (1 + xw.1) * (1 - yw.1) * (1 - zw.1) - 1 = Fin.snoc (α := fun _ => ℝ) _ _ (Fin.castSucc (0 : Fin 2))
      rw [Fin.snoc_castSucc]
      simp only [xiTriangle, Matrix.cons_val_zero]
      ring
    · show 1 / 2 * (1 + yw.1) * (1 - zw.1) - 1 = Fin.snoc (α := fun _ => ℝ) _ _ (Fin.castSucc (1 : Fin 2))
      rw [Fin.snoc_castSucc]
      simp only [xiTriangle, Matrix.cons_val_one, Matrix.cons_val_fin_one]
      ring
    · show zw.1 = Fin.snoc (α := fun _ => ℝ) _ _ (Fin.last 2)
      rw [Fin.snoc_last]

/-! ### Specification and the theorems -/

/-- The determinant of the edge vectors `v_j - v_0` of a simplex: positive for a positively oriented simplex. -/
def orientation {d : ℕ} (v : Fin (d + 1) → Fin d → ℝ) : ℝ :=
  Matrix.det (Matrix.of fun i j : Fin d => v j.succ i - v 0 i)

/-- The rule integrates all polynomials of total degree at most `N` exactly over the simplex with vertices `v`,
its weights are positive and its points lie in the simplex. -/
def GoodRule {d : ℕ} (R : QRule ℝ (Fin d → ℝ)) (v : Fin (d + 1) → Fin d → ℝ) (N : ℕ) : Prop :=
  (∀ p : MvPolynomial (Fin d) ℝ, p.totalDegree ≤ N →
    R.integrate (fun x => MvPolynomial.eval x p) = ∫ x in convexHull ℝ (Set.range v), MvPolynomial.eval x p) ∧
  (∀ w ∈ R.wts, 0 < w) ∧ ∀ x ∈ R.pts, x ∈ convexHull ℝ (Set.range v)

theorem good_of_exact {d : ℕ} (v : Fin (d + 1) → Fin d → ℝ) (hv : 0 < orientation v) (pts : List (Fin d → ℝ))
    (ws : List ℝ) (hl : ws.length = pts.length) (N : ℕ) (hex : ExactOn d N (pts.zip ws)) (hw : ∀ w ∈ ws, 0 < w)
    (hp : ∀ x ∈ pts, x ∈ refSimplex d) :
    ∃ R, mappedRule (List.ofFn v) pts ws = some R ∧ GoodRule R v N ∧ R.pts.length = pts.length := by
  obtain ⟨R, h1, h2⟩ := mapped_exact v hv.ne' pts ws hl N hex
  obtain ⟨A, b, R', h3, h4, h5, h6, -⟩ := mapped_rule_spec v pts ws hl
  rw [h1, Option.some.injEq] at h3
  subst h3
  refine ⟨R, h1, ⟨fun p hp => ?_, ?_, ?_⟩, by simp [h5]⟩
  · rw [h2 p hp]
    have : SignType.sign (edgeMatrix v).det = 1 := sign_pos hv
    rw [this]; simp
  · intro w hw'
    rw [h6, List.mem_map] at hw'
    obtain ⟨w', hw', rfl⟩ := hw'
    have hd := det_of_map v A b h4
    have hd0 : 0 < (edgeMatrix v).det := hv
    rw [hd] at hd0
    exact mul_pos (pos_of_mul_pos_right hd0 (by positivity)) (hw _ hw')
  · intro x hx
    rw [h5, List.mem_map] at hx
    obtain ⟨y, hy, rfl⟩ := hx
    have hy' := hp y hy
    rw [← hull_dvert] at hy'
    let φ : (Fin d → ℝ) →ᵃ[ℝ] (Fin d → ℝ) := (Matrix.toLin' A).toAffineMap + AffineMap.const ℝ _ b
    have hφ : ∀ x, φ x = A.mulVec x + b := by intro x; simp [φ]
    have himg : φ '' convexHull ℝ (Set.range (dvert d)) = convexHull ℝ (Set.range v) := by
      rw [AffineMap.image_convexHull, ← Set.range_comp]
      congr 2
      funext i
      rw [Function.comp_apply, hφ, h4]
    rw [← himg]
    exact ⟨y, hy', hφ y⟩

private theorem gj_wts_pos (a m : ℕ) (hm : 1 ≤ m) (xs : List ℝ) (hx : GaussNodes a 0 m xs) :
    ∀ w ∈ (gaussJacobiRule a 0 m xs).wts, 0 < w := by
  have := gauss_jacobi_weights_pos a 0 m hm xs (by simpa using hx)
  simpa [gaussJacobiRule] using this

private theorem gj_pts_mem (a m : ℕ) (xs : List ℝ) (hx : GaussNodes a 0 m xs) :
    ∀ x ∈ (gaussJacobiRule a 0 m xs).pts, -1 < x ∧ x < 1 :=
  gauss_nodes_interior a 0 m xs (by simpa using hx)

/-- C29 (line): the `m`-point Gauss rule on any positively oriented interval is exact for degree `2m-1`. -/
theorem gauss_line_exact (v : Fin 2 → Fin 1 → ℝ) (hv : 0 < orientation v) (m : ℕ) (hm : 1 ≤ m) (xs : List ℝ)
    (hx : GaussNodes 0 0 m xs) :
    ∃ R, gaussLineRule (List.ofFn v) m xs = some R ∧ GoodRule R v (2 * m - 1) ∧ R.pts.length = m := by
  obtain ⟨R, h1, h2, h3⟩ := good_of_exact v hv _ _ (by simp [gj_len]) _ (line_exact m hm xs hx)
    (by have := gj_wts_pos 0 m hm xs (by simpa using hx); simpa using this) (by
      intro x hx'
      obtain ⟨y, hy, rfl⟩ := List.mem_map.1 hx'
      have h := gj_pts_mem 0 m xs (by simpa using hx) y (by simpa [gaussJacobiRule] using hy)
      constructor
      · intro i; exact h.1.le
      · simp only [Finset.univ_unique, Finset.sum_singleton]; linarith [h.2])
  exact ⟨R, h1, h2, by rw [h3]; simpa [gaussJacobiRule] using hx.1⟩

/-- C29 (triangle): the collapsed rule with `m` points per direction is exact for total degree `2m-1` on every
positively oriented triangle. -/
theorem collapsed_triangle_exact (v : Fin 3 → Fin 2 → ℝ) (hv : 0 < orientation v) (m : ℕ) (hm : 1 ≤ m)
    (xs ys : List ℝ) (hx : GaussNodes 0 0 m xs) (hy : GaussNodes 1 0 m ys) :
    ∃ R, collapsedTriangleRule (List.ofFn v) m xs ys = some R ∧ GoodRule R v (2 * m - 1) ∧ R.pts.length = m * m := by
  obtain ⟨R, h1, h2, h3⟩ := good_of_exact v hv _ _ (by simp [gj_len]) _ (triangle_exact m hm xs ys hx hy)
    (by
      intro w hw
      simp only [List.mem_flatMap, List.mem_map] at hw
      obtain ⟨w1, hw1, w2, hw2, rfl⟩ := hw
      have h1 := gj_wts_pos 0 m hm xs (by simpa using hx) w1 (by simpa using hw1)
      have h2 := gj_wts_pos 1 m hm ys (by simpa using hy) w2 (by simpa using hw2)
      positivity)
    (by
      intro p hp
      simp only [List.mem_flatMap, List.mem_map] at hp
      obtain ⟨x, hx1, y, hy1, rfl⟩ := hp
      have h1 := gj_pts_mem 0 m xs (by simpa using hx) x (by simpa [gaussJacobiRule] using hx1)
      have h2 := gj_pts_mem 1 m ys (by simpa using hy) y (by simpa [gaussJacobiRule] using hy1)
      have e1 : 0 ≤ (1 + x) * (1 - y) := mul_nonneg (by linarith) (by linarith)
      have e2 : 0 ≤ (1 - x) * (1 - y) := mul_nonneg (by linarith) (by linarith)
      constructor
      · intro i
        fin_cases i
        · show -1 ≤ 1 / 2 * (1 + x) * (1 - y) - 1; linarith
        · exact h2.1.le
      · rw [Fin.sum_univ_two]
        show 1 / 2 * (1 + x) * (1 - y) - 1 + 1 + (y + 1) ≤ 2
        nlinarith)
  refine ⟨R, h1, h2, ?_⟩
  rw [h3]
  simp [List.length_flatMap, gaussJacobiRule, hx.1, hy.1]

/-- C29 (tetrahedron). -/
theorem collapsed_tetrahedron_exact (v : Fin 4 → Fin 3 → ℝ) (hv : 0 < orientation v) (m : ℕ) (hm : 1 ≤ m)
    (xs ys zs : List ℝ) (hx : GaussNodes 0 0 m xs) (hy : GaussNodes 1 0 m ys) (hz : GaussNodes 2 0 m zs) :
    ∃ R, collapsedTetrahedronRule (List.ofFn v) m xs ys zs = some R ∧ GoodRule R v (2 * m - 1) ∧
      R.pts.length = m * (m * m) := by
  obtain ⟨R, h1, h2, h3⟩ := good_of_exact v hv _ _ (by simp [List.length_flatMap, gj_len]) _
    (tetrahedron_exact m hm xs ys zs hx hy hz)
    (by
      intro w hw
      simp only [List.mem_flatMap, List.mem_map] at hw
      obtain ⟨w1, hw1, w2, hw2, w3, hw3, rfl⟩ := hw
      have h1 := gj_wts_pos 0 m hm xs (by simpa using hx) w1 (by simpa using hw1)
      have h2 := gj_wts_pos 1 m hm ys (by simpa using hy) w2 (by simpa using hw2)
      have h3 := gj_wts_pos 2 m hm zs (by simpa using hz) w3 (by simpa using hw3)
      positivity)
    (by
      intro p hp
      simp only [List.mem_flatMap, List.mem_map] at hp
      obtain ⟨x, hx1, y, hy1, z, hz1, rfl⟩ := hp
      have h1 := gj_pts_mem 0 m xs (by simpa using hx) x (by simpa [gaussJacobiRule] using hx1)
      have h2 := gj_pts_mem 1 m ys (by simpa using hy) y (by simpa [gaussJacobiRule] using hy1)
      have h3 := gj_pts_mem 2 m zs (by simpa using hz) z (by simpa [gaussJacobiRule] using hz1)
      have e1 : 0 ≤ (1 + x) * (1 - y) := mul_nonneg (by linarith) (by linarith)
      have e2 : 0 ≤ (1 - x) * (1 - y) := mul_nonneg (by linarith) (by linarith)
      have f1 : 0 ≤ (1 + x) * (1 - y) * (1 - z) := mul_nonneg e1 (by linarith)
      have f2 : 0 ≤ (1 - x) * (1 - y) * (1 - z) := mul_nonneg e2 (by linarith)
      have f3 : 0 ≤ (1 + y) * (1 - z) := mul_nonneg (by linarith) (by linarith)
      constructor
      · intro i
        fin_cases i
        · show -1 ≤ 1 / 4 * (1 + x) * (1 - y) * (1 - z) - 1; linarith
        · show -1 ≤ 1 / 2 * (1 + y) * (1 - z) - 1; linarith
        · exact h3.1.le
      · rw [Fin.sum_univ_three]
        show 1 / 4 * (1 + x) * (1 - y) * (1 - z) - 1 + 1 + (1 / 2 * (1 + y) * (1 - z) - 1 + 1) + (z + 1) ≤ 2
        nlinarith)
  refine ⟨R, h1, h2, ?_⟩
  rw [h3]
  simp [List.length_flatMap, gaussJacobiRule, hx.1, hy.1, hz.1]

/-- C29: the orientation is needed: on a negatively oriented simplex (the code takes `det(A)` without absolute
value) the rule gives minus the integral. -/
theorem collapsed_triangle_negative (v : Fin 3 → Fin 2 → ℝ) (hv : orientation v < 0) (m : ℕ) (hm : 1 ≤ m)
    (xs ys : List ℝ) (hx : GaussNodes 0 0 m xs) (hy : GaussNodes 1 0 m ys) :
    ∃ R, collapsedTriangleRule (List.ofFn v) m xs ys = some R ∧
      ∀ p : MvPolynomial (Fin 2) ℝ, p.totalDegree ≤ 2 * m - 1 →
        R.integrate (fun x => MvPolynomial.eval x p) = -∫ x in convexHull ℝ (Set.range v), MvPolynomial.eval x p := by
  obtain ⟨R, h1, h2⟩ := mapped_exact v hv.ne _ _ (by simp [gj_len]) _ (triangle_exact m hm xs ys hx hy)
  refine ⟨R, h1, fun p hp => ?_⟩
  rw [h2 p hp]
  have : SignType.sign (edgeMatrix v).det = -1 := sign_neg hv
  rw [this]; simp

/-- The UFC triangle is positively oriented, and the nodes exist, for every `m`. -/
example (m : ℕ) (hm : 1 ≤ m) : ∃ xs ys R, collapsedTriangleRule (List.ofFn ![![0, 0], ![1, 0], ![0, 1]]) m xs ys = some R ∧
    GoodRule R ![![0, 0], ![1, 0], ![0, 1]] (2 * m - 1) := by
  obtain ⟨xs, hx⟩ := gauss_nodes_exist 0 0 m
  obtain ⟨ys, hy⟩ := gauss_nodes_exist 1 0 m
  obtain ⟨R, h1, h2, -⟩ := collapsed_triangle_exact ![![0, 0], ![1, 0], ![0, 1]]
    (by simp [orientation, Matrix.det_fin_two]) m hm xs ys (by simpa using hx) (by simpa using hy)
  exact ⟨xs, ys, R, h1, h2⟩

example (m : ℕ) (hm : 1 ≤ m) : ∃ xs ys zs R, collapsedTetrahedronRule
    (List.ofFn ![![0, 0, 0], ![1, 0, 0], ![0, 1, 0], ![0, 0, 1]]) m xs ys zs = some R ∧
    GoodRule R ![![0, 0, 0], ![1, 0, 0], ![0, 1, 0], ![0, 0, 1]] (2 * m - 1) := by
  obtain ⟨xs, hx⟩ := gauss_nodes_exist 0 0 m
  obtain ⟨ys, hy⟩ := gauss_nodes_exist 1 0 m
  obtain ⟨zs, hz⟩ := gauss_nodes_exist 2 0 m
  obtain ⟨R, h1, h2, -⟩ := collapsed_tetrahedron_exact ![![0, 0, 0], ![1, 0, 0], ![0, 1, 0], ![0, 0, 1]]
    (by simp [orientation, Matrix.det_fin_three]) m hm xs ys zs (by simpa using hx) (by simpa using hy) (by simpa using hz)
  exact ⟨xs, ys, zs, R, h1, h2⟩

end FIAT
