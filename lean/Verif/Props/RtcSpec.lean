/-
C76: specification of H(div) and H(curl) elements on the quadrilateral.
-/
import Verif.Props.RtcTab

namespace FIAT
open MvPolynomial

/-- Specification: `emb` maps the reference coordinates of an entity of the cell to the entity: `[]` to the vertex, `[s]` to the point of
the edge `(a, b)` at parameter `s`, `[x, y]` to `(x, y)` in the cell. -/
structure IsQuadEmb (c : CellData ℝ) (emb : Key → ℕ → List ℝ → Fin 2 → ℝ) : Prop where
  vertex : ∀ e a, HasEntity c.topo (.int 0) e [a] → ∀ i : Fin 2, emb (.int 0) e [] i = c.coord a i
  edge : ∀ e a b, HasEntity c.topo (.int 1) e [a, b] → ∀ (s : ℝ) (i : Fin 2), emb (.int 1) e [s] i = c.coord a i + s * (c.coord b i - c.coord a i)
  cell : ∀ x y, emb (.int 2) 0 [x, y] = ![x, y]

/-- The value of the field with coefficients `u` in the basis `w` at `x`. -/
noncomputable def fieldAt (N : ℕ) (w : ℕ → Fin 2 → MvPolynomial (Fin 2) ℝ) (u : ℕ → ℝ) (x : Fin 2 → ℝ) : Fin 2 → ℝ :=
  fun c => ∑ r ∈ Finset.range N, u r * eval x (w r c)

/-- Specification: `w 0, ..., w (N-1)` is a basis of the vector fields whose component `c` has degree at most `a c i` in variable `i`. -/
structure IsFieldBasis (N : ℕ) (w : ℕ → Fin 2 → MvPolynomial (Fin 2) ℝ) (a : Fin 2 → Fin 2 → ℕ) : Prop where
  spans : ∀ v : Fin 2 → MvPolynomial (Fin 2) ℝ, (∀ c i, degreeOf i (v c) ≤ a c i) ↔
    ∃ u : ℕ → ℝ, ∀ c, v c = ∑ r ∈ Finset.range N, C (u r) * w r c
  independent : ∀ u : ℕ → ℝ, (∀ c, ∑ r ∈ Finset.range N, C (u r) * w r c = 0) → ∀ r < N, u r = 0

/-- Specification: the moments of the element on an edge.  There are no dofs on vertices; the dofs on an edge with vertices `a`, `b` are
the coefficients, in a basis `ψ` of functions of one variable which is the same for all edges, of the function
`s ↦ B (v_b - v_a) (field at v_a + s (v_b - v_a))`. -/
structure IsEdgeElement (c : CellData ℝ) (ids : EntityIds Key) (N n : ℕ) (B : (Fin 2 → ℝ) → (Fin 2 → ℝ) → ℝ)
    (w : ℕ → Fin 2 → MvPolynomial (Fin 2) ℝ) (ψ : ℕ → MvPolynomial (Fin 1) ℝ) : Prop where
  vertex : ∀ e l, ids.at? (.int 0) e = some l → l = []
  edge : ∀ e a b l, HasEntity c.topo (.int 1) e [a, b] → ids.at? (.int 1) e = some l → l.length = n ∧
    ∀ (u : ℕ → ℝ) (s : ℝ), B (fun i => c.coord b i - c.coord a i) (fieldAt N w u fun i => c.coord a i + s * (c.coord b i - c.coord a i)) =
      ∑ j : Fin l.length, u l[j] * eval (fun _ => s) (ψ j)

/-- `t × v`: the flux of `v` through a segment with direction `t`. -/
def cross2 (t v : Fin 2 → ℝ) : ℝ := t 0 * v 1 - t 1 * v 0

/-- `t · v`. -/
def dot2 (t v : Fin 2 → ℝ) : ℝ := t 0 * v 0 + t 1 * v 1

end FIAT
