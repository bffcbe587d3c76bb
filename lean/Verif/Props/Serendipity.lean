/-
C34: the serendipity elements on the quadrilateral and the hexahedron.
-/
import Verif.Lemmas.Serendipity
import Verif.Lemmas.Blocks
import Verif.Props.TensorCell
import Mathlib.Analysis.Convex.Hull

namespace FIAT
open MvPolynomial

section cells

/-- The entities of the quadrilateral, in the order of the dof numbering: vertices, edges, interior. -/
def quadList : List (Key × ℕ) :=
  [(.int 0, 0), (.int 0, 1), (.int 0, 2), (.int 0, 3), (.int 1, 0), (.int 1, 1), (.int 1, 2), (.int 1, 3), (.int 2, 0)]

/-- The position of the entities of the quadrilateral. -/
def quadEnts : List (SerEnt 2) :=
  [(![some false, some false], []), (![some false, some true], []), (![some true, some false], []),
   (![some true, some true], []),
   (![some false, none], [1]), (![some true, none], [1]), (![none, some false], [0]), (![none, some true], [0]),
   (![none, none], [0, 1])]

/-- The entities of the hexahedron. -/
def hexList : List (Key × ℕ) :=
  (List.range 8).map (fun i => (.int 0, i)) ++ (List.range 12).map (fun i => (.int 1, i)) ++
  (List.range 6).map (fun i => (.int 2, i)) ++ [(.int 3, 0)]

/-- The position of the entities of the hexahedron. -/
def hexEnts : List (SerEnt 3) :=
  ([false, true].flatMap fun a => [false, true].flatMap fun b => [false, true].map fun c =>
    (![some a, some b, some c], [])) ++
  ([false, true].flatMap fun a => [false, true].map fun b => (![some a, some b, none], [2])) ++
  ([false, true].flatMap fun a => [false, true].map fun b => (![some a, none, some b], [1])) ++
  ([false, true].flatMap fun a => [false, true].map fun b => (![none, some a, some b], [0])) ++
  ([false, true].map fun a => (![some a, none, none], [1, 2])) ++
  ([false, true].map fun a => (![none, some a, none], [2, 0])) ++
  ([false, true].map fun a => (![none, none, some a], [0, 1])) ++ [(![none, none, none], [0, 1, 2])]

/-- The entity with a given name. -/
def entOf {D : ℕ} (L : List (Key × ℕ)) (es : List (SerEnt D)) (x : Key × ℕ) : SerEnt D :=
  es.getD (L.idxOf x) (fun _ => none, [])

/-- The facts about a cell that the proofs use; all of them are checked by computation below. -/
structure SerCell {D : ℕ} (topo : Topology Key) (L : List (Key × ℕ)) (es : List (SerEnt D)) (bit : ℕ → Fin D → Bool) :
    Prop where
  nodup : L.Nodup
  mem : ∀ d e, (d, e) ∈ L ↔ ∃ v, HasEntity topo d e v
  ents : SerEnts es
  map : es = L.map (entOf L es)
  sub : ∀ d e v d' e' v', HasEntity topo d e v → HasEntity topo d' e' v' → ¬ v ⊆ v' →
    ∃ c b, (∀ k ∈ v', bit k c = b) ∧ (entOf L es (d, e)).1 c ≠ some b

/-- All entities of a topology with their vertices. -/
def allEntities (topo : Topology Key) : List ((Key × ℕ) × List ℕ) :=
  topo.flatMap fun p => p.2.map fun q => ((p.1, q.1), q.2)

theorem mem_allEntities {topo : Topology Key} {d : Key} {e : ℕ} {v : List ℕ} (h : HasEntity topo d e v) :
    ((d, e), v) ∈ allEntities topo := by
  obtain ⟨es, h1, h2⟩ := h.mem
  exact List.mem_flatMap.2 ⟨_, h1, List.mem_map.2 ⟨_, h2, rfl⟩⟩

/-- A computable check of `SerCell`. -/
def serCellB {D : ℕ} (topo : Topology Key) (L : List (Key × ℕ)) (es : List (SerEnt D)) (bit : ℕ → Fin D → Bool) : Bool :=
  decide L.Nodup && ((allEntities topo).map Prod.fst == L) &&
  (allEntities topo).all (fun x => (Dict.get? topo x.1.1).bind (fun t => Dict.get? t x.1.2) == some x.2) &&
  es.all (fun e => decide (e.2.Nodup ∧ (∀ c, c ∈ e.2 ↔ e.1 c = none) ∧ e.2.length ≤ 3)) &&
  decide (es.Pairwise fun e e' => ∃ c b, e.1 c = some b ∧ e'.1 c ≠ some b) &&
  decide (∀ code : Fin D → Option Bool, ∃ e ∈ es, e.1 = code) &&
  decide (es = L.map (entOf L es)) &&
  (allEntities topo).all (fun x => (allEntities topo).all fun y => decide (x.2 ⊆ y.2) ||
    decide (∃ c b, (∀ k ∈ y.2, bit k c = b) ∧ (entOf L es x.1).1 c ≠ some b))

theorem serCell_of_check {D : ℕ} {topo : Topology Key} {L : List (Key × ℕ)} {es : List (SerEnt D)}
    {bit : ℕ → Fin D → Bool} (h : serCellB topo L es bit = true) : SerCell topo L es bit := by
  simp only [serCellB, Bool.and_eq_true, decide_eq_true_eq, List.all_eq_true, beq_iff_eq, Bool.or_eq_true] at h
  obtain ⟨⟨⟨⟨⟨⟨⟨h1, h2⟩, h3⟩, h4⟩, h5⟩, h6⟩, h7⟩, h8⟩ := h
  refine ⟨h1, fun d e => ?_, ⟨fun e he => h4 e he, h5, h6⟩, h7, ?_⟩
  · rw [← h2, List.mem_map]
    constructor
    · rintro ⟨x, hx, hxe⟩
      have := h3 x hx
      rw [Option.bind_eq_some_iff] at this
      obtain ⟨t, ht, ht2⟩ := this
      rw [hxe] at ht ht2
      exact ⟨x.2, t, ht, ht2⟩
    · rintro ⟨v, hv⟩
      exact ⟨_, mem_allEntities hv, rfl⟩
  · intro d e v d' e' v' h h' hv
    rcases h8 _ (mem_allEntities h) _ (mem_allEntities h') with hs | hs
    · exact absurd hs hv
    · exact hs

/-- The coordinates of the vertices. -/
def quadBit (k : ℕ) : Fin 2 → Bool := ![k.testBit 1, k.testBit 0]
def hexBit (k : ℕ) : Fin 3 → Bool := ![k.testBit 2, k.testBit 1, k.testBit 0]

theorem quad_cell : SerCell (ufcQuadrilateral : CellData ℝ).topo quadList quadEnts quadBit := by
  have h : (ufcQuadrilateral : CellData ℝ).topo = (ufcQuadrilateral : CellData ℤ).topo := rfl
  rw [h]
  exact serCell_of_check (by decide +kernel)

theorem hex_cell : SerCell (ufcHexahedron : CellData ℝ).topo hexList hexEnts hexBit := by
  have h : (ufcHexahedron : CellData ℝ).topo = (ufcHexahedron : CellData ℤ).topo := rfl
  rw [h]
  exact serCell_of_check (by decide +kernel)

end cells

section basis

theorem quad_verts : (ufcQuadrilateral : CellData ℝ).verts = [[0, 0], [0, 1], [1, 0], [1, 1]] := rfl

theorem hex_verts : (ufcHexahedron : CellData ℝ).verts =
    [[0, 0, 0], [0, 0, 1], [0, 1, 0], [0, 1, 1], [1, 0, 0], [1, 0, 1], [1, 1, 0], [1, 1, 1]] := rfl

private theorem quad_d : serD (D := 2) (ufcQuadrilateral : CellData ℝ).verts = fun c b => serLam b c := by
  funext c b
  rw [quad_verts, serD, serLo, serHi, serLam]
  fin_cases c <;> cases b <;> simp [vcoord]

private theorem quad_mid : serMid (D := 2) (ufcQuadrilateral : CellData ℝ).verts = fun c => 2 * X c - 1 := by
  funext c
  rw [quad_verts, serMid, serLo, serHi]
  fin_cases c <;> simp [vcoord]

private theorem hex_d : serD (D := 3) (ufcHexahedron : CellData ℝ).verts = fun c b => serLam b c := by
  funext c b
  rw [hex_verts, serD, serLo, serHi, serLam]
  fin_cases c <;> cases b <;> simp [vcoord]

private theorem hex_mid : serMid (D := 3) (ufcHexahedron : CellData ℝ).verts = fun c => 2 * X c - 1 := by
  funext c
  rw [hex_verts, serMid, serLo, serHi]
  fin_cases c <;> simp [vcoord]

/-- The list of basis functions on the quadrilateral. -/
noncomputable def quadBasis (r : ℕ) : List (MvPolynomial (Fin 2) ℝ) :=
  vLambda2 (serD (ufcQuadrilateral : CellData ℝ).verts) ++
  eLambda2 (serD (ufcQuadrilateral : CellData ℝ).verts) (serMid (ufcQuadrilateral : CellData ℝ).verts) r ++
  fLambda2 (serD (ufcQuadrilateral : CellData ℝ).verts) (serMid (ufcQuadrilateral : CellData ℝ).verts) r

theorem quad_basis (r : ℕ) : quadBasis r = quadEnts.flatMap (SerEnt.funcs r) := by
  rw [quadBasis, quad_d, quad_mid]
  simp only [vLambda2, eLambda2, fLambda2, quadEnts, SerEnt.funcs, serIdx, List.flatMap_cons, List.flatMap_nil,
    List.map_cons, List.map_nil, List.append_nil, List.map_map, List.map_flatMap, List.length_cons, List.length_nil,
    List.append_assoc, List.cons_append, List.nil_append]
  have hf : (fun k => List.map (serPhi ![none, none] (0 + 1 + 1) ∘
        fun j => (Pi.single (0 : Fin 2) j + Pi.single 1 (k - 4 - j) : Fin 2 → ℕ)) (List.range (k - 3))) =
      fun k => (List.range (k - 3)).map fun j => serLeg j (2 * X 0 - 1 : MvPolynomial (Fin 2) ℝ) *
        serLeg (k - 4 - j) (2 * X 1 - 1) * serLam false 0 * serLam true 0 * serLam false 1 * serLam true 1 := by
    funext k
    refine List.map_congr_left fun j _ => ?_
    simp [serPhi, serFactor, serLam, Fin.prod_univ_two]
    ring
  rw [hf]
  have he : ∀ (code : Fin 2 → Option Bool) (c : Fin 2) (f : ℕ → MvPolynomial (Fin 2) ℝ),
      (∀ j, serPhi code (0 + 1) (Pi.single c j) = f j) →
      (List.range (r - 1)).map (serPhi code (0 + 1) ∘ fun j => (Pi.single c j : Fin 2 → ℕ)) =
        (List.range (r - 1)).map f := fun code c f h => List.map_congr_left fun j _ => h j
  rw [he ![some false, none] 1 (fun j => -serLeg j (2 * X 1 - 1) * serLam false 1 * serLam true 1 * serLam false 0),
    he ![some true, none] 1 (fun j => -serLeg j (2 * X 1 - 1) * serLam false 1 * serLam true 1 * serLam true 0),
    he ![none, some false] 0 (fun j => -serLeg j (2 * X 0 - 1) * serLam false 0 * serLam true 0 * serLam false 1),
    he ![none, some true] 0 (fun j => -serLeg j (2 * X 0 - 1) * serLam false 0 * serLam true 0 * serLam true 1)]
  · simp [serPhi, serFactor, serLam, Fin.prod_univ_two]
  all_goals
    intro j
    simp only [serPhi, serFactor, serLam, Fin.prod_univ_two, Matrix.cons_val_zero, Matrix.cons_val_one,
      Pi.single_eq_same]
    simp only [zero_add, pow_one, map_neg, map_one, if_true, Bool.false_eq_true, if_false]
    ring

/-- The list of basis functions on the hexahedron. -/
noncomputable def hexBasis (r : ℕ) : List (MvPolynomial (Fin 3) ℝ) :=
  vLambda3 (serD (ufcHexahedron : CellData ℝ).verts) ++
  eLambda3 (serD (ufcHexahedron : CellData ℝ).verts) (serMid (ufcHexahedron : CellData ℝ).verts) r ++
  fLambda3 (serD (ufcHexahedron : CellData ℝ).verts) (serMid (ufcHexahedron : CellData ℝ).verts) r ++
  iLambda3 (serD (ufcHexahedron : CellData ℝ).verts) (serMid (ufcHexahedron : CellData ℝ).verts) r

theorem hex_basis (r : ℕ) : hexBasis r = hexEnts.flatMap (SerEnt.funcs r) := by
  rw [hexBasis, hex_d, hex_mid]
  simp only [hexEnts, List.flatMap_append, vLambda3, eLambda3, fLambda3, iLambda3, List.append_assoc]
  refine congrArg₂ (· ++ ·) ?_ (congrArg₂ (· ++ ·) ?_ (congrArg₂ (· ++ ·) ?_ (congrArg₂ (· ++ ·) ?_
    (congrArg₂ (· ++ ·) ?_ (congrArg₂ (· ++ ·) ?_ (congrArg₂ (· ++ ·) ?_ ?_))))))
  · simp [SerEnt.funcs, serIdx, serPhi, serFactor, serLam, Fin.prod_univ_three]
  · simp only [List.flatMap_cons, List.flatMap_nil, List.flatMap_append, List.cons_append, List.nil_append,
      List.append_nil, List.append_assoc, SerEnt.funcs, serIdx,
      List.map_cons, List.map_nil, List.map_map]
    refine congrArg₂ (· ++ ·) ?_ (congrArg₂ (· ++ ·) ?_ (congrArg₂ (· ++ ·) ?_ ?_)) <;>
    · refine List.map_congr_left fun j _ => ?_
      simp [serPhi, serFactor, serLam, Fin.prod_univ_three]
      first | ring1 | (ring_nf; simp)
  · simp only [List.flatMap_cons, List.flatMap_nil, List.flatMap_append, List.cons_append, List.nil_append,
      List.append_nil, List.append_assoc, SerEnt.funcs, serIdx,
      List.map_cons, List.map_nil, List.map_map]
    refine congrArg₂ (· ++ ·) ?_ (congrArg₂ (· ++ ·) ?_ (congrArg₂ (· ++ ·) ?_ ?_)) <;>
    · refine List.map_congr_left fun j _ => ?_
      simp [serPhi, serFactor, serLam, Fin.prod_univ_three]
      first | ring1 | (ring_nf; simp)
  · simp only [List.flatMap_cons, List.flatMap_nil, List.flatMap_append, List.cons_append, List.nil_append,
      List.append_nil, List.append_assoc, SerEnt.funcs, serIdx,
      List.map_cons, List.map_nil, List.map_map]
    refine congrArg₂ (· ++ ·) ?_ (congrArg₂ (· ++ ·) ?_ (congrArg₂ (· ++ ·) ?_ ?_)) <;>
    · refine List.map_congr_left fun j _ => ?_
      simp [serPhi, serFactor, serLam, Fin.prod_univ_three]
      first | ring1 | (ring_nf; simp)
  · simp only [List.flatMap_cons, List.flatMap_nil, List.flatMap_append, List.cons_append, List.nil_append,
      List.append_nil, List.append_assoc, SerEnt.funcs, serIdx,
      List.map_cons, List.map_nil, List.map_map, List.map_flatMap]
    refine congrArg₂ (· ++ ·) ?_ ?_ <;>
    · refine List.flatMap_congr fun k _ => List.map_congr_left fun j _ => ?_
      simp [serPhi, serFactor, serLam, Fin.prod_univ_three]
      first | ring1 | (ring_nf; simp)
  · simp only [List.flatMap_cons, List.flatMap_nil, List.flatMap_append, List.cons_append, List.nil_append,
      List.append_nil, List.append_assoc, SerEnt.funcs, serIdx,
      List.map_cons, List.map_nil, List.map_map, List.map_flatMap]
    refine congrArg₂ (· ++ ·) ?_ ?_ <;>
    · refine List.flatMap_congr fun k _ => List.map_congr_left fun j _ => ?_
      simp [serPhi, serFactor, serLam, Fin.prod_univ_three]
      first | ring1 | (ring_nf; simp)
  · simp only [List.flatMap_cons, List.flatMap_nil, List.flatMap_append, List.cons_append, List.nil_append,
      List.append_nil, List.append_assoc, SerEnt.funcs, serIdx,
      List.map_cons, List.map_nil, List.map_map, List.map_flatMap]
    refine congrArg₂ (· ++ ·) ?_ ?_ <;>
    · refine List.flatMap_congr fun k _ => List.map_congr_left fun j _ => ?_
      simp [serPhi, serFactor, serLam, Fin.prod_univ_three]
      first | ring1 | (ring_nf; simp)
  · simp only [List.flatMap_cons, List.flatMap_nil, List.append_nil, SerEnt.funcs, serIdx, List.map_map,
      List.map_flatMap]
    refine List.flatMap_congr fun l _ => List.flatMap_congr fun j _ => List.map_congr_left fun k _ => ?_
    simp [serPhi, serFactor, serLam, Fin.prod_univ_three]
    ring

end basis

section ids

private theorem blockLoop_congr (n n' : Key × ℕ → ℕ) (L : List (Key × ℕ)) (h : ∀ x ∈ L, n x = n' x)
    (st : ℕ × EntityIds Key) : blockLoop n L st = blockLoop n' L st := by
  induction L generalizing st with
  | nil => rfl
  | cons a L ih =>
    simp only [blockLoop, List.foldl_cons] at ih ⊢
    rw [h a (by simp)]
    exact ih (fun x hx => h x (by simp [hx])) _

private theorem blockLoop_append (n : Key × ℕ → ℕ) (L L' : List (Key × ℕ)) (st : ℕ × EntityIds Key) :
    blockLoop n (L ++ L') st = blockLoop n L' (blockLoop n L st) := by
  simp [blockLoop, List.foldl_append]

private theorem serTr_eq (r : ℕ) : serTr r = (r - 2).choose 2 := by
  unfold serTr
  split_ifs with h
  · rw [Nat.choose_eq_zero_of_lt (by omega)]
  · rw [Nat.choose_two_right]
    obtain ⟨k, rfl⟩ : ∃ k, r = k + 2 := ⟨r - 2, by omega⟩
    rcases k with _ | k
    · rfl
    · have : (((k + 1 + 2 : ℕ) : ℤ) - 3) * (((k + 1 + 2 : ℕ) : ℤ) - 2) = ((k * (k + 1) : ℕ) : ℤ) := by push_cast; ring
      rw [this, show k + 1 + 2 - 2 = k + 1 by omega, show k + 1 - 1 = k by omega, mul_comm (k + 1) k]
      omega

/-- The number of basis functions of an entity with a given name. -/
private noncomputable def serCount {D : ℕ} (r : ℕ) (L : List (Key × ℕ)) (es : List (SerEnt D)) (x : Key × ℕ) : ℕ :=
  (SerEnt.funcs r (entOf L es x)).length

private theorem serCount_eq {D : ℕ} (r : ℕ) (L : List (Key × ℕ)) (es : List (SerEnt D)) (x : Key × ℕ) (m : ℕ)
    (hm : (entOf L es x).2.length = m) (h3 : m ≤ 3) :
    serCount r L es x = if m = 0 then 1 else if m = 1 then r - 1 else if m = 2 then (r - 2).choose 2 else
      (r - 3).choose 3 := by
  rw [serCount, SerEnt.funcs, List.length_map, length_serIdx _ _ (by omega), hm]

private theorem quad_ids (r : ℕ) : serIds2 (ufcQuadrilateral : CellData ℝ).topo r =
    blockLoop (serCount r quadList quadEnts) quadList (0, blankIds (ufcQuadrilateral : CellData ℝ).topo) := by
  have h : (ufcQuadrilateral : CellData ℝ).topo = (ufcQuadrilateral : CellData ℤ).topo := rfl
  have h0 : serEntities (ufcQuadrilateral : CellData ℝ).topo 0 = quadList.take 4 := by rw [h]; decide +kernel
  have h1 : serEntities (ufcQuadrilateral : CellData ℝ).topo 1 = (quadList.drop 4).take 4 := by rw [h]; decide +kernel
  have h2 : serEntities (ufcQuadrilateral : CellData ℝ).topo 2 = quadList.drop 8 := by rw [h]; decide +kernel
  rw [serIds2, h0, h1, h2]
  rw [show quadList = quadList.take 4 ++ ((quadList.drop 4).take 4 ++ quadList.drop 8) from rfl, blockLoop_append,
    blockLoop_append]
  rw [← show quadList = quadList.take 4 ++ ((quadList.drop 4).take 4 ++ quadList.drop 8) from rfl]
  have k0 : ∀ x ∈ quadList.take 4, (entOf quadList quadEnts x).2.length = 0 := by decide +kernel
  have k1 : ∀ x ∈ (quadList.drop 4).take 4, (entOf quadList quadEnts x).2.length = 1 := by decide +kernel
  have k2 : ∀ x ∈ quadList.drop 8, (entOf quadList quadEnts x).2.length = 2 := by decide +kernel
  rw [blockLoop_congr (fun _ => 1) (serCount r quadList quadEnts) _ fun x hx =>
      by rw [serCount_eq r _ _ x 0 (k0 x hx) (by omega)]; rfl]
  rw [blockLoop_congr (fun _ => r - 1) (serCount r quadList quadEnts) _ fun x hx =>
      by rw [serCount_eq r _ _ x 1 (k1 x hx) (by omega)]; rfl]
  rw [blockLoop_congr (fun _ => serTr r) (serCount r quadList quadEnts) _ fun x hx =>
      by rw [serCount_eq r _ _ x 2 (k2 x hx) (by omega), serTr_eq]; rfl]

private theorem hex_ids2 (r : ℕ) : serIds2 (ufcHexahedron : CellData ℝ).topo r =
    blockLoop (serCount r hexList hexEnts) (hexList.take 26) (0, blankIds (ufcHexahedron : CellData ℝ).topo) := by
  have h : (ufcHexahedron : CellData ℝ).topo = (ufcHexahedron : CellData ℤ).topo := rfl
  have h0 : serEntities (ufcHexahedron : CellData ℝ).topo 0 = hexList.take 8 := by rw [h]; decide +kernel
  have h1 : serEntities (ufcHexahedron : CellData ℝ).topo 1 = (hexList.drop 8).take 12 := by rw [h]; decide +kernel
  have h2 : serEntities (ufcHexahedron : CellData ℝ).topo 2 = (hexList.drop 20).take 6 := by rw [h]; decide +kernel
  rw [serIds2, h0, h1, h2]
  rw [show hexList.take 26 = hexList.take 8 ++ ((hexList.drop 8).take 12 ++ (hexList.drop 20).take 6) from rfl,
    blockLoop_append, blockLoop_append]
  have k0 : ∀ x ∈ hexList.take 8, (entOf hexList hexEnts x).2.length = 0 := by decide +kernel
  have k1 : ∀ x ∈ (hexList.drop 8).take 12, (entOf hexList hexEnts x).2.length = 1 := by decide +kernel
  have k2 : ∀ x ∈ (hexList.drop 20).take 6, (entOf hexList hexEnts x).2.length = 2 := by decide +kernel
  rw [blockLoop_congr (fun _ => 1) (serCount r hexList hexEnts) _ fun x hx =>
      by rw [serCount_eq r _ _ x 0 (k0 x hx) (by omega)]; rfl]
  rw [blockLoop_congr (fun _ => r - 1) (serCount r hexList hexEnts) _ fun x hx =>
      by rw [serCount_eq r _ _ x 1 (k1 x hx) (by omega)]; rfl]
  rw [blockLoop_congr (fun _ => serTr r) (serCount r hexList hexEnts) _ fun x hx =>
      by rw [serCount_eq r _ _ x 2 (k2 x hx) (by omega), serTr_eq]; rfl]

private theorem length_iLambda3 (d : Fin 3 → Bool → MvPolynomial (Fin 3) ℝ) (mid : Fin 3 → MvPolynomial (Fin 3) ℝ)
    (r : ℕ) : (iLambda3 d mid r).length = serCount r hexList hexEnts (.int 3, 0) := by
  have : (entOf hexList hexEnts (.int 3, 0)).2 = [0, 1, 2] := by decide +kernel
  rw [serCount, SerEnt.funcs, List.length_map, this, serIdx, iLambda3]
  simp [List.length_flatMap]

private theorem hex_ids (r n : ℕ) (hn : n = serCount r hexList hexEnts (.int 3, 0)) :
    (serIds3 (ufcHexahedron : CellData ℝ).topo r n).1 =
      (blockLoop (serCount r hexList hexEnts) hexList (0, blankIds (ufcHexahedron : CellData ℝ).topo)).1 ∧
    ∀ d e, (serIds3 (ufcHexahedron : CellData ℝ).topo r n).2.at? d e =
      (blockLoop (serCount r hexList hexEnts) hexList (0, blankIds (ufcHexahedron : CellData ℝ).topo)).2.at? d e := by
  have hl : hexList = hexList.take 26 ++ [(.int 3, 0)] := rfl
  have hb : ∀ st, blockLoop (serCount r hexList hexEnts) hexList st =
      blockStep (serCount r hexList hexEnts (.int 3, 0))
        (blockLoop (serCount r hexList hexEnts) (hexList.take 26) st) (.int 3, 0) := by
    intro st
    conv_lhs => rw [hl, blockLoop_append, ← hl]
    rfl
  rw [hb, ← hex_ids2, ← hn]
  refine ⟨rfl, fun d e => ?_⟩
  simp only [serIds3, blockStep, setIds_at]
  split_ifs with hc
  · rfl
  · by_cases hd : Key.int 3 = d
    · subst hd
      have he : e ≠ 0 := fun h => hc ⟨rfl, h.symm⟩
      rw [EntityIds.at?_put, if_pos rfl, hex_ids2, (blockLoop_spec _ _ (by decide +kernel) _).2, if_neg]
      · have : ¬ ∃ v, HasEntity (ufcHexahedron : CellData ℝ).topo (.int 3) e v := by
          rw [← hex_cell.mem]
          intro hm
          have h27 : ∀ x ∈ hexList, x.1 = .int 3 → x.2 = 0 := by decide +kernel
          exact he (h27 _ hm rfl)
        cases hat : (blankIds (ufcHexahedron : CellData ℝ).topo).at? (.int 3) e with
        | none => rfl
        | some l => exact absurd ((blankIds_at _ _ _ _).1 hat).2 this
      · intro hm
        have h27 : ∀ x ∈ hexList.take 26, x.1 ≠ .int 3 := by decide +kernel
        exact h27 _ hm rfl
    · rw [EntityIds.at?_put, if_neg hd]

end ids

section spec
variable {D : ℕ}

/-- Specification: the number of basis functions of degree `r` attached to one entity of dimension `m`. -/
def serDofs (r m : ℕ) : ℕ := if m = 0 then 1 else if m = 1 then r - 1 else if m = 2 then (r - 2).choose 2 else
  (r - 3).choose 3

/-- Specification: the closed entity of a cell spanned by the vertices with numbers `v`. -/
def closedEntity (D : ℕ) (verts : List (List ℝ)) (v : List ℕ) : Set (Fin D → ℝ) :=
  convexHull ℝ {y | ∃ k ∈ v, ∃ p, verts[k]? = some p ∧ ∀ c : Fin D, y c = p.getD c 0}

private theorem closed_coord (verts : List (List ℝ)) (bit : ℕ → Fin D → Bool)
    (hverts : ∀ k p, verts[k]? = some p → ∀ c : Fin D, p.getD c 0 = serBit (bit k c)) (v : List ℕ) (c : Fin D) (b : Bool)
    (hb : ∀ k ∈ v, bit k c = b) (x : Fin D → ℝ) (hx : x ∈ closedEntity D verts v) : x c = serBit b := by
  have : closedEntity D verts v ⊆ {x | x c = serBit b} := by
    refine convexHull_min ?_ ?_
    · rintro y ⟨k, hk, p, hp, hy⟩
      rw [Set.mem_ofPred_eq, hy c, hverts k p hp c, hb k hk]
    · intro y hy z hz s t _ _ hst
      rw [Set.mem_ofPred_eq] at hy hz ⊢
      rw [Pi.add_apply, Pi.smul_apply, Pi.smul_apply, hy, hz, smul_eq_mul, smul_eq_mul, ← add_mul, hst, one_mul]
  exact this hx

theorem quad_bits (k : ℕ) (p : List ℝ) (h : (ufcQuadrilateral : CellData ℝ).verts[k]? = some p) (c : Fin 2) :
    p.getD c 0 = serBit (quadBit k c) := by
  rw [quad_verts] at h
  have hk : k < 4 := by
    have := (List.getElem?_eq_some_iff.1 h).1
    simpa using this
  interval_cases k <;> simp at h <;> subst h <;> fin_cases c <;> simp [serBit, quadBit, Nat.testBit]

theorem hex_bits (k : ℕ) (p : List ℝ) (h : (ufcHexahedron : CellData ℝ).verts[k]? = some p) (c : Fin 3) :
    p.getD c 0 = serBit (hexBit k c) := by
  rw [hex_verts] at h
  have hk : k < 8 := by
    have := (List.getElem?_eq_some_iff.1 h).1
    simpa using this
  interval_cases k <;> simp at h <;> subst h <;> fin_cases c <;> simp [serBit, hexBit, Nat.testBit]

/-- The conclusions about the numbering and the basis functions, from the facts about the cell. -/
private theorem ser_generic {topo : Topology Key} {L : List (Key × ℕ)} {es : List (SerEnt D)} {bit : ℕ → Fin D → Bool}
    (hc : SerCell topo L es bit) (verts : List (List ℝ))
    (hverts : ∀ k p, verts[k]? = some p → ∀ c : Fin D, p.getD c 0 = serBit (bit k c)) (r : ℕ)
    (ids : EntityIds Key)
    (hids : ∀ d e, ids.at? d e = (blockLoop (serCount r L es) L (0, blankIds topo)).2.at? d e) :
    (blockLoop (serCount r L es) L (0, blankIds topo)).1 = (es.flatMap (SerEnt.funcs r)).length ∧
    DofsPartition ids (es.flatMap (SerEnt.funcs r)).length ∧ SameEntities topo ids ∧
    (∀ d e v, HasEntity topo d e v → ∃ l, ids.at? d e = some l ∧ l.length = serCount r L es (d, e)) ∧
    ∀ d e v d' e' v' l, HasEntity topo d e v → HasEntity topo d' e' v' → ¬ v ⊆ v' → ids.at? d e = some l →
      ∀ i ∈ l, ∃ p, (es.flatMap (SerEnt.funcs r))[i]? = some p ∧
        ∀ x ∈ closedEntity D verts v', eval x p = 0 := by
  have hblank : ∀ d e l, (blankIds topo).at? d e = some l → l = [] := fun d e l h => ((blankIds_at _ _ _ _).1 h).1
  have hflat : es.flatMap (SerEnt.funcs r) = L.flatMap fun x => SerEnt.funcs r (entOf L es x) := by
    conv_lhs => rw [hc.map]
    rw [List.flatMap_map]
  have hlen : (es.flatMap (SerEnt.funcs r)).length = (L.map (serCount r L es)).sum := by
    rw [hflat, List.length_flatMap]; rfl
  obtain ⟨h1, h2⟩ := blockLoop_spec (serCount r L es) L hc.nodup (0, blankIds topo)
  have hat : ∀ d e v, HasEntity topo d e v → ids.at? d e =
      some (List.range' (blockBefore (serCount r L es) L (d, e)) (serCount r L es (d, e))) := by
    intro d e v h
    rw [hids, h2, if_pos ((hc.mem d e).2 ⟨v, h⟩), zero_add]
  refine ⟨by rw [h1, hlen, zero_add], ?_, ?_, ?_, ?_⟩
  · rw [hlen]
    have := blockLoop_partition (serCount r L es) L hc.nodup (0, blankIds topo) (partition_zero _ hblank)
      fun x _ l hl => hblank _ _ _ hl
    rw [zero_add] at this
    refine ⟨fun d e l hl => this.1 d e l (by rw [← hids]; exact hl), fun i hi => ?_⟩
    obtain ⟨p, ⟨l, hl, hil⟩, hu⟩ := this.2 i hi
    exact ⟨p, ⟨l, by rw [hids]; exact hl, hil⟩, fun q ⟨l', hl', hil'⟩ => hu q ⟨l', by rw [← hids]; exact hl', hil'⟩⟩
  · intro d e
    rw [hids]
    exact blockLoop_same topo _ L hc.nodup _ (blankIds_same topo) (fun x hx => (hc.mem x.1 x.2).1 hx) d e
  · intro d e v h
    exact ⟨_, hat d e v h, by simp⟩
  · intro d e v d' e' v' l h h' hv hl i hi
    rw [hat d e v h] at hl
    cases hl
    rw [List.mem_range'_1] at hi
    obtain ⟨j, rfl⟩ : ∃ j, i = blockBefore (serCount r L es) L (d, e) + j := ⟨_, (Nat.add_sub_cancel' hi.1).symm⟩
    have hj : j < (SerEnt.funcs r (entOf L es (d, e))).length := by
      have : serCount r L es (d, e) = (SerEnt.funcs r (entOf L es (d, e))).length := rfl
      omega
    have hb := flatMap_block (fun x => SerEnt.funcs r (entOf L es x)) L (d, e) ((hc.mem d e).2 ⟨v, h⟩) j hj
    rw [← hflat] at hb
    refine ⟨(SerEnt.funcs r (entOf L es (d, e)))[j], ?_, ?_⟩
    · rw [← List.getElem?_eq_getElem hj, ← hb]; rfl
    · intro x hx
      obtain ⟨c, b, hb1, hb2⟩ := hc.sub d e v d' e' v' h h' hv
      have hmem := List.getElem_mem hj
      generalize (SerEnt.funcs r (entOf L es (d, e)))[j] = p at hmem
      rw [SerEnt.funcs, List.mem_map] at hmem
      obtain ⟨a, _, rfl⟩ := hmem
      exact serPhi_vanish _ _ _ x c b (closed_coord verts bit hverts v' c b hb1 x hx) hb2

private theorem quad_dims : ∀ x ∈ quadList, ∀ m, x.1 = .int m → (entOf quadList quadEnts x).2.length = m ∧ m ≤ 3 := by
  intro x hx m hm
  have : ∀ x ∈ quadList, x.1 = .int (entOf quadList quadEnts x).2.length ∧
    (entOf quadList quadEnts x).2.length ≤ 3 := by decide +kernel
  obtain ⟨h1, h2⟩ := this x hx
  rw [hm] at h1
  cases h1
  exact ⟨rfl, h2⟩

private theorem hex_dims : ∀ x ∈ hexList, ∀ m, x.1 = .int m → (entOf hexList hexEnts x).2.length = m ∧ m ≤ 3 := by
  intro x hx m hm
  have : ∀ x ∈ hexList, x.1 = .int (entOf hexList hexEnts x).2.length ∧
    (entOf hexList hexEnts x).2.length ≤ 3 := by decide +kernel
  obtain ⟨h1, h2⟩ := this x hx
  rw [hm] at h1
  cases h1
  exact ⟨rfl, h2⟩

private theorem len0 (r : ℕ) : (serIdx r ([] : List (Fin D))).length = 1 := rfl
private theorem len1 (r : ℕ) (c : Fin D) : (serIdx r [c]).length = r - 1 := length_serIdx r [c] (by simp)
private theorem len2 (r : ℕ) (c c' : Fin D) : (serIdx r [c, c']).length = (r - 2).choose 2 :=
  length_serIdx r [c, c'] (by simp)
private theorem len3 (r : ℕ) (c c' c'' : Fin D) : (serIdx r [c, c', c'']).length = (r - 3).choose 3 :=
  length_serIdx r [c, c', c''] (by simp)

theorem quad_length (r : ℕ) : (quadBasis r).length = 4 + 4 * (r - 1) + (r - 2).choose 2 := by
  rw [quad_basis, List.length_flatMap]
  simp only [SerEnt.funcs, List.length_map]
  simp only [quadEnts, List.map_cons, List.map_nil]
  simp only [len0, len1, len2, len3, List.sum_cons, List.sum_nil]
  omega

theorem hex_length (r : ℕ) :
    (hexBasis r).length = 8 + 12 * (r - 1) + 6 * (r - 2).choose 2 + (r - 3).choose 3 := by
  rw [hex_basis, List.length_flatMap]
  simp only [SerEnt.funcs, List.length_map]
  simp only [hexEnts, List.map_cons, List.map_nil, List.flatMap_cons, List.flatMap_nil, List.append_nil,
    List.cons_append, List.nil_append]
  simp only [len0, len1, len2, len3, List.sum_cons, List.sum_nil]
  omega

/-- C34: the serendipity element of any degree `r ≥ 1` on the quadrilateral is constructed (the assertion on the
number of basis functions holds); it has `4 + 4(r-1) + C(r-2, 2)` basis functions, numbered without gaps or repeats by
the entities: one per vertex, `r-1` per edge, `C(r-2, 2)` in the interior. -/
theorem serendipity_quad_dofs (r : ℕ) (hr : 1 ≤ r) :
    ∃ basis ids, serendipity2 ufcQuadrilateral r = some (basis, ids) ∧
      basis.length = 4 + 4 * (r - 1) + (r - 2).choose 2 ∧ DofsPartition ids basis.length ∧
      SameEntities (ufcQuadrilateral : CellData ℝ).topo ids ∧
      ∀ m e v, HasEntity (ufcQuadrilateral : CellData ℝ).topo (.int m) e v →
        ∃ l, ids.at? (.int m) e = some l ∧ l.length = serDofs r m := by
  obtain ⟨h1, h2, h3, h4, -⟩ := ser_generic quad_cell _ quad_bits r
    (serIds2 (ufcQuadrilateral : CellData ℝ).topo r).2 fun d e => by rw [quad_ids r]
  refine ⟨quadBasis r, (serIds2 (ufcQuadrilateral : CellData ℝ).topo r).2, ?_, quad_length r, ?_, h3, ?_⟩
  · have : (quadBasis r).length = (serIds2 (ufcQuadrilateral : CellData ℝ).topo r).1 := by
      rw [quad_ids, h1, quad_basis]
    rw [serendipity2, if_pos ⟨by omega, this⟩]
    rfl
  · rw [quad_basis]; exact h2
  · intro m e v h
    obtain ⟨l, hl, hl2⟩ := h4 _ _ _ h
    obtain ⟨k1, k2⟩ := quad_dims _ ((quad_cell.mem _ _).2 ⟨v, h⟩) m rfl
    exact ⟨l, hl, by rw [hl2, serCount_eq r _ _ _ m k1 k2]; rfl⟩

/-- C34, hexahedron: `8 + 12(r-1) + 6 C(r-2, 2) + C(r-3, 3)` basis functions. -/
theorem serendipity_hex_dofs (r : ℕ) (hr : 1 ≤ r) :
    ∃ basis ids, serendipity3 ufcHexahedron r = some (basis, ids) ∧
      basis.length = 8 + 12 * (r - 1) + 6 * (r - 2).choose 2 + (r - 3).choose 3 ∧ DofsPartition ids basis.length ∧
      SameEntities (ufcHexahedron : CellData ℝ).topo ids ∧
      ∀ m e v, HasEntity (ufcHexahedron : CellData ℝ).topo (.int m) e v →
        ∃ l, ids.at? (.int m) e = some l ∧ l.length = serDofs r m := by
  obtain ⟨k1, k2⟩ := hex_ids r _ (length_iLambda3 (serD (ufcHexahedron : CellData ℝ).verts)
    (serMid (ufcHexahedron : CellData ℝ).verts) r)
  obtain ⟨h1, h2, h3, h4, -⟩ := ser_generic hex_cell _ hex_bits r _ k2
  refine ⟨hexBasis r, _, ?_, hex_length r, ?_, h3, ?_⟩
  · have : (hexBasis r).length = (serIds3 (ufcHexahedron : CellData ℝ).topo r
        (iLambda3 (serD (ufcHexahedron : CellData ℝ).verts) (serMid (ufcHexahedron : CellData ℝ).verts) r).length).1 := by
      rw [k1, h1, ← hex_basis]
    rw [serendipity3, if_pos ⟨by omega, this⟩]
    rfl
  · rw [hex_basis]; exact h2
  · intro m e v h
    obtain ⟨l, hl, hl2⟩ := h4 _ _ _ h
    obtain ⟨k1, k2⟩ := hex_dims _ ((hex_cell.mem _ _).2 ⟨v, h⟩) m rfl
    exact ⟨l, hl, by rw [hl2, serCount_eq r _ _ _ m k1 k2]; rfl⟩

/-- Degree 0 is refused. -/
theorem serendipity_degree_zero (cell : CellData ℝ) : serendipity2 cell 0 = none ∧ serendipity3 cell 0 = none := by
  simp [serendipity2, serendipity3]

/-- C34: a basis function attached to an entity vanishes on every closed entity that does not contain that entity. -/
theorem serendipity_quad_vanish (r : ℕ) (basis : List (MvPolynomial (Fin 2) ℝ)) (ids : EntityIds Key)
    (h : serendipity2 ufcQuadrilateral r = some (basis, ids)) (d : Key) (e : ℕ) (v : List ℕ) (d' : Key) (e' : ℕ)
    (v' : List ℕ) (hE : HasEntity (ufcQuadrilateral : CellData ℝ).topo d e v)
    (hE' : HasEntity (ufcQuadrilateral : CellData ℝ).topo d' e' v') (hv : ¬ v ⊆ v') (l : List ℕ)
    (hl : ids.at? d e = some l) (i : ℕ) (hi : i ∈ l) :
    ∃ p, basis[i]? = some p ∧ ∀ x ∈ closedEntity 2 (ufcQuadrilateral : CellData ℝ).verts v', eval x p = 0 := by
  rw [serendipity2] at h
  split_ifs at h
  rw [Option.some.injEq, Prod.mk.injEq] at h
  obtain ⟨-, -, -, -, h5⟩ := ser_generic quad_cell _ quad_bits r ids fun d e => by rw [← h.2, quad_ids r]
  obtain ⟨p, hp, hp2⟩ := h5 d e v d' e' v' l hE hE' hv hl i hi
  refine ⟨p, ?_, hp2⟩
  rw [← h.1, ← hp, ← quad_basis]; rfl

theorem serendipity_hex_vanish (r : ℕ) (basis : List (MvPolynomial (Fin 3) ℝ)) (ids : EntityIds Key)
    (h : serendipity3 ufcHexahedron r = some (basis, ids)) (d : Key) (e : ℕ) (v : List ℕ) (d' : Key) (e' : ℕ)
    (v' : List ℕ) (hE : HasEntity (ufcHexahedron : CellData ℝ).topo d e v)
    (hE' : HasEntity (ufcHexahedron : CellData ℝ).topo d' e' v') (hv : ¬ v ⊆ v') (l : List ℕ)
    (hl : ids.at? d e = some l) (i : ℕ) (hi : i ∈ l) :
    ∃ p, basis[i]? = some p ∧ ∀ x ∈ closedEntity 3 (ufcHexahedron : CellData ℝ).verts v', eval x p = 0 := by
  rw [serendipity3] at h
  split_ifs at h
  rw [Option.some.injEq, Prod.mk.injEq] at h
  obtain ⟨-, k2⟩ := hex_ids r _ (length_iLambda3 (serD (ufcHexahedron : CellData ℝ).verts)
    (serMid (ufcHexahedron : CellData ℝ).verts) r)
  obtain ⟨-, -, -, -, h5⟩ := ser_generic hex_cell _ hex_bits r ids fun d e => by rw [← h.2, k2]
  obtain ⟨p, hp, hp2⟩ := h5 d e v d' e' v' l hE hE' hv hl i hi
  refine ⟨p, ?_, hp2⟩
  rw [← h.1, ← hp, ← hex_basis]; rfl

/-- The basis functions of an entity, from the facts about the cell. -/
private theorem ser_blocks {topo : Topology Key} {L : List (Key × ℕ)} {es : List (SerEnt D)} {bit : ℕ → Fin D → Bool}
    (hc : SerCell topo L es bit) (r : ℕ) (ids : EntityIds Key)
    (hids : ∀ d e, ids.at? d e = (blockLoop (serCount r L es) L (0, blankIds topo)).2.at? d e) (d : Key) (e : ℕ) (v l : List ℕ)
    (h : HasEntity topo d e v) (hl : ids.at? d e = some l) :
    l.map (fun i => (es.flatMap (SerEnt.funcs r)).getD i 0) = SerEnt.funcs r (entOf L es (d, e)) := by
  have hflat : es.flatMap (SerEnt.funcs r) = L.flatMap fun x => SerEnt.funcs r (entOf L es x) := by
    conv_lhs => rw [hc.map]
    rw [List.flatMap_map]
  have hm := (hc.mem d e).2 ⟨v, h⟩
  obtain ⟨-, h2⟩ := blockLoop_spec (serCount r L es) L hc.nodup (0, blankIds topo)
  rw [hids, h2, if_pos hm, zero_add, Option.some.injEq] at hl
  subst hl
  apply List.ext_getElem
  · simp [serCount]
  · intro j h3 h4
    have hb := flatMap_block (fun x => SerEnt.funcs r (entOf L es x)) L (d, e) hm j h4
    rw [← hflat, List.getElem?_eq_getElem h4] at hb
    rw [List.getElem_map, List.getElem_range', List.getD_eq_getElem?_getD, one_mul]
    change (es.flatMap (SerEnt.funcs r))[blockBefore (fun x => (SerEnt.funcs r (entOf L es x)).length) L (d, e) + j]?.getD 0 = _
    rw [hb]
    rfl

/-- The basis functions attached to an entity, in the order of `entity_dofs`. -/
theorem serendipity_quad_blocks (r : ℕ) (basis : List (MvPolynomial (Fin 2) ℝ)) (ids : EntityIds Key)
    (h : serendipity2 ufcQuadrilateral r = some (basis, ids)) (d : Key) (e : ℕ) (v l : List ℕ)
    (hE : HasEntity (ufcQuadrilateral : CellData ℝ).topo d e v) (hl : ids.at? d e = some l) :
    l.map (fun i => basis.getD i 0) = SerEnt.funcs r (entOf quadList quadEnts (d, e)) := by
  rw [serendipity2] at h
  split_ifs at h
  rw [Option.some.injEq, Prod.mk.injEq] at h
  have hb : basis = quadEnts.flatMap (SerEnt.funcs r) := by rw [← quad_basis, ← h.1]; rfl
  rw [hb]
  exact ser_blocks quad_cell r ids (fun d e => by rw [← h.2, quad_ids r]) d e v l hE hl

theorem serendipity_hex_blocks (r : ℕ) (basis : List (MvPolynomial (Fin 3) ℝ)) (ids : EntityIds Key)
    (h : serendipity3 ufcHexahedron r = some (basis, ids)) (d : Key) (e : ℕ) (v l : List ℕ)
    (hE : HasEntity (ufcHexahedron : CellData ℝ).topo d e v) (hl : ids.at? d e = some l) :
    l.map (fun i => basis.getD i 0) = SerEnt.funcs r (entOf hexList hexEnts (d, e)) := by
  rw [serendipity3] at h
  split_ifs at h
  rw [Option.some.injEq, Prod.mk.injEq] at h
  obtain ⟨-, k2⟩ := hex_ids r _ (length_iLambda3 (serD (ufcHexahedron : CellData ℝ).verts)
    (serMid (ufcHexahedron : CellData ℝ).verts) r)
  have hb : basis = hexEnts.flatMap (SerEnt.funcs r) := by rw [← hex_basis, ← h.1]; rfl
  rw [hb]
  exact ser_blocks hex_cell r ids (fun d e => by rw [← h.2, k2]) d e v l hE hl

/-- Non-vacuity: vertex 0 of the quadrilateral is not on edge 1, whose vertices are 2 and 3. -/
example : HasEntity (ufcQuadrilateral : CellData ℝ).topo (.int 0) 0 [0] ∧
    HasEntity (ufcQuadrilateral : CellData ℝ).topo (.int 1) 1 [2, 3] ∧ ¬ [0] ⊆ [2, 3] :=
  ⟨⟨_, rfl, rfl⟩, ⟨_, rfl, rfl⟩, by decide⟩

/-- C34: the basis functions span the polynomials of superlinear degree at most `r`, and are independent. -/
theorem serendipity_quad_space (r : ℕ) (hr : 1 ≤ r) (basis : List (MvPolynomial (Fin 2) ℝ)) (ids : EntityIds Key)
    (h : serendipity2 ufcQuadrilateral r = some (basis, ids)) :
    LinearIndependent ℝ basis.get ∧
    ∀ p : MvPolynomial (Fin 2) ℝ, p ∈ Submodule.span ℝ {q | q ∈ basis} ↔ ∀ m ∈ p.support, superlinearDegree m ≤ r := by
  rw [serendipity2] at h
  split_ifs at h
  rw [Option.some.injEq, Prod.mk.injEq] at h
  have hb : basis = quadEnts.flatMap (SerEnt.funcs r) := by rw [← quad_basis, ← h.1]; rfl
  rw [hb, serendipity_span_eq _ quad_cell.ents r hr]
  exact ⟨serendipity_independent _ quad_cell.ents r hr, fun p => mem_restrictSupport_iff ℝ⟩

theorem serendipity_hex_space (r : ℕ) (hr : 1 ≤ r) (basis : List (MvPolynomial (Fin 3) ℝ)) (ids : EntityIds Key)
    (h : serendipity3 ufcHexahedron r = some (basis, ids)) :
    LinearIndependent ℝ basis.get ∧
    ∀ p : MvPolynomial (Fin 3) ℝ, p ∈ Submodule.span ℝ {q | q ∈ basis} ↔ ∀ m ∈ p.support, superlinearDegree m ≤ r := by
  rw [serendipity3] at h
  split_ifs at h
  rw [Option.some.injEq, Prod.mk.injEq] at h
  have hb : basis = hexEnts.flatMap (SerEnt.funcs r) := by rw [← hex_basis, ← h.1]; rfl
  rw [hb, serendipity_span_eq _ hex_cell.ents r hr]
  exact ⟨serendipity_independent _ hex_cell.ents r hr, fun p => mem_restrictSupport_iff ℝ⟩

/-- Consequence: all polynomials of degree at most `r` are in the space. -/
theorem superlinear_le_total (m : Fin D →₀ ℕ) : superlinearDegree m ≤ m.sum fun _ e => e := by
  rw [Finsupp.sum_fintype _ _ (by simp)]
  exact Finset.sum_le_sum fun c _ => by split_ifs <;> omega

theorem serendipity_contains_polynomials (r : ℕ) (hr : 1 ≤ r) (basis : List (MvPolynomial (Fin 2) ℝ))
    (ids : EntityIds Key) (h : serendipity2 ufcQuadrilateral r = some (basis, ids)) (p : MvPolynomial (Fin 2) ℝ)
    (hp : p.totalDegree ≤ r) : p ∈ Submodule.span ℝ {q | q ∈ basis} := by
  rw [(serendipity_quad_space r hr basis ids h).2]
  intro m hm
  exact (superlinear_le_total m).trans ((le_totalDegree hm).trans hp)

theorem serendipity_hex_contains_polynomials (r : ℕ) (hr : 1 ≤ r) (basis : List (MvPolynomial (Fin 3) ℝ))
    (ids : EntityIds Key) (h : serendipity3 ufcHexahedron r = some (basis, ids)) (p : MvPolynomial (Fin 3) ℝ)
    (hp : p.totalDegree ≤ r) : p ∈ Submodule.span ℝ {q | q ∈ basis} := by
  rw [(serendipity_hex_space r hr basis ids h).2]
  intro m hm
  exact (superlinear_le_total m).trans ((le_totalDegree hm).trans hp)

/-- The hypothesis of the last theorems is met for every degree. -/
example : (∃ basis ids, serendipity2 ufcQuadrilateral 5 = some (basis, ids) ∧ basis.length = 23) ∧
    ∃ basis ids, serendipity3 ufcHexahedron 6 = some (basis, ids) ∧ basis.length = 105 := by
  obtain ⟨b, i, h, h2, -⟩ := serendipity_quad_dofs 5 (by norm_num)
  obtain ⟨b', i', h', h2', -⟩ := serendipity_hex_dofs 6 (by norm_num)
  exact ⟨⟨b, i, h, h2⟩, ⟨b', i', h', h2'⟩⟩

end spec

end FIAT
