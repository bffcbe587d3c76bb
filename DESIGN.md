# FIAT in Lean 4: design of the formal model

Source: `/repo` (FEniCS/fiat, python), read as text.  Model and proofs: `/verif/lean/Verif`.

## Modelling conventions

* **Numbers.** Python floats are modelled by an arbitrary field `K` (characteristic 0 where the code
  divides by integers), by `ℝ` where the code takes square roots / integrates, and by `ℚ` for tables.
  Rounding, NaN and overflow are *not* modelled.  Python ints are `ℕ`/`ℤ`.
* **Containers.** Python lists/tuples are `List`; dictionaries are association lists in insertion order
  (`Dict κ α := List (κ × α)`), so that iteration order is part of the model.
* **Exceptions** are values (`Except Err α` / `Option`).  Python assertions are modelled as errors.
* **Duck typing.** `_tabulate` and friends run on floats and on sympy symbols; they are modelled
  polymorphically over a commutative `K`-algebra, so one definition gives both the polynomial and its values.
* **Linear algebra.** `numpy.linalg.inv/solve` are modelled by Mathlib's matrix inverse / by "the" solution
  of the system, on the invertible inputs only; singular input is the error branch.
  The SVD of `polynomial_set_union_normalized` is a parameter with a contract (`IsSVD`: the rows are recovered,
  the right factors are orthonormal, the singular values are nonnegative and decreasing; `SvdGap`: no nonzero
  singular value is below the threshold the code uses).  `svd_exists` proves that every real matrix has one.
  `compute_normal` of non-UFC cells and `volume` are outside the model.
* Loops are folds or structural recursion mirroring the source, imperative array filling is modelled by an
  explicit store (`ℕ → Option R`) so "slot read before written" is observable.

Each Lean definition cites file and lines.  Property theorems are in `Verif/Props/*.lean`, the model in
`Verif/Model/*.lean`, helper lemmas in `Verif/Lemmas/*.lean`, small specifications in `Verif/Spec/*.lean`
(or at the top of the Props file).
- Each property file ends with `example`s showing that concrete cases meet the hypotheses; `Props/Instances.lean` and `Props/MoreExamples.lean` add named instances on concrete cells and elements for theorems whose examples are elsewhere.

## Plan per property

| id | modelled | proof |
|----|----------|-------|
| C01 | `mis` (Int-free, with the non-terminating branch by fuel) | induction on m; `Nodup`, membership iff, length by Pascal |
| C02 | `lattice_iter` | induction on depth |
| C03 | `make_lattice`, `make_points` over a field / ordered field | barycentric coordinates of each point, injectivity |
| C04 | `polynomial_dimension`, `get_num_members` | finrank of `MvPolynomial.restrictTotalDegree` |
| C05 | `Cell.__init__` sub_entities / connectivity | list lemmas for arbitrary dictionaries |
| C06 | `DualSet.__init__` closure loop incl. the odd store key | "last sub-entity has maximal dimension" |
| C07 | `TensorProductCell.__init__` topology | `itertools.product`/`ravel_multi_index` lemmas |
| C08 | `flatten_entities`, `compute_unflattening_map` | counting lemma over the sorted traversal |
| C09 | `Simplex.get_entity_transform`, tensor-product version | linear algebra over UFC vertices |
| C10 | `make_affine_mapping` (system assembled as in the code) | solution ⇔ vertex conditions; uniqueness by affine independence |
| C11 | UFC normals over ℝ | algebra; the tetrahedron has length 2: refuted + partial |
| C12 | `contains_point` | order lemmas |
| C13,C14 | `eval_jacobi*` over a field | generating explicit sum satisfies the recurrence; derivative identity |
| C15 | expansion sets as store-filling loops | refinement to a recursive function; degree bounds; independence |
| C16 | as C15 with integrals on the base simplex | orthogonality of Jacobi polynomials, Duffy transform |
| C17 | `form_matrix_product`, `tabulate`, dmats | `pderiv` represented by matrices; induction on alpha |
| C18 | `CiarletElement.__init__` | matrix algebra |
| C19 | both `to_riesz` | fold/sum exchange |
| C20,C21 | lattice unisolvence, Lagrange numbering | induction on degree and dimension, divisibility by barycentric coordinate |
| C22,C23 | entity_ids loops of the families | interval-block lemma, binomial identities |
| C24 | `concatenate_entity_dofs`, `_merge_entity_ids`, tabulate blocks | offset lemma |
| C25 | `RestrictedElement`, `_get_indices` | list induction |
| C26 | `TensorProductElement` | product lemmas |
| C27–C31 | quadrature | orthogonality argument; affine/product/Duffy change of variables; C31 refuted for all m |
| C32 | `barycentric_interpolation` | Mathlib `Lagrange` |
| C33 | `bernstein_db`, `bernstein_Dx`, dual | multinomials; order = degree ≥ 2 branch refuted |
| C34 | serendipity basis | factor argument |
| C35 | `hdiv_trace` helpers | barycentric algebra |
| C36 | `Hdiv`/`Hcurl` tabulate case analysis | decision logic |
| C37 | `check_format_variant` | decision logic on strings |
| C38 | functional constructors | unfold; refuted for two classes |
| C39 | cached state machine | invariant over call histories |
| C40 | `index_iterator`, ON sets | list induction |
| C41 | `compute_pointwise_dual` | matrix algebra |
| C42 | nested cells | structural induction |
| C43 | `ufc_cell` | string splitting |
| C44 | rational tables | linearity + finite check of monomials |
| C45 | `orthopoly` recurrences | induction |
| C46 | `GaussLobattoLegendreQuadratureLineRule` on any interval, `eigh` a parameter with the contract `IsEigh` | Golub-Welsch: Jacobi matrix of the modified recursion, orthogonality, sign arguments for the nodes |
| C47 | `orthopoly.gauss`, `orthopoly.lobatto` for arbitrary coefficients | the same; `lobatto` refuted for non-constant alpha by a witness |
| C48 | the three one-dimensional elements, constructor and `tabulate` | `point_element_spec` (generic nodal basis of point-evaluation elements) + barycentric interpolation |
| C49 | `CubicHermite` on the three simplices | block layout of the dual set; trace by Hermite interpolation on edges and bubbles on faces; square Ciarlet system |
| C50 | `Morley` | the gradient of a quadratic is affine, determined by the midpoints |
| C51 | `Argyris`, `QuinticArgyris` | Hermite interpolation on edges, square of the barycentric product divides, interior lattice |
| C52 | `Bell` | the edge moment is the leading coefficient of the normal derivative; then as C51 |
| C53 | `CrouzeixRaviart` | affine functions from facet centroids |
| C54 | `DiscontinuousTaylor` | induction on the degree: derivatives of order 1..k at a point determine the gradient |
| C55 | `Regge`, `ReggeDual`, `_generate_dofs`, `compute_face_edge_tangents`, `PointwiseInnerProductEvaluation` | induction on the entity dimension: on an entity t_ab^T u t_ab vanishes on the facets opposite all other vertices, the remaining quotient is determined by the interior lattice; counting |
| C56 | `HellanHerrmannJohnson`, `HellanHerrmannJohnsonDual` | the normal-normal part along an edge has r+1 points; the interior part is a combination of products of barycentric coordinates |
| C57 | `CodimBubble`, `RestrictedElement` as a Ciarlet element on top of the Lagrange element | the kept basis functions span the functions on which the dropped nodes vanish; trace argument of C21 |
| C58 | `DRTDualSet`, `DiscontinuousRaviartThomas` | node list equals that of the point variant of C23; entity ids computed |
| C59 | `BDFMSpace` (with the Lagrange edge functions), `BDFMDualSet`, `BrezziDouglasFortinMarini` | nine explicit fields are independent and span the space of the specification; edge normal components determined by two points; midpoint tangents settle the rest |
| C60 | FIAT/mardal_tai_winther.py, the Legendre moments of functional.py | Legendre moments and divergence moments are computed exactly; explicit coefficients of cubics in the edge coordinates give unisolvence; constrained_span identifies the span of the leading basis functions |
| C61 | FIAT/arnold_winther.py, the bidirectional Legendre moments and tensor divergence moments of functional.py | moments computed exactly; explicit coefficients of the three cubic components in edge coordinates, integrals by Dirichlet's formula, give unisolvence; constrained_span identifies the span of the leading basis functions |
| C62 | FIAT/arnold_winther.py | the same with quadratic components |
| C63 | FIAT/discontinuous_pc.py, P0Dual, flatten_reference_cube of the shipped cells | make_lattice commutes with affine maps, so the nodes are the Lagrange nodes of the mapped simplex, whose unisolvence is C20; the corners are computed |
| C64 | `nodalEnriched` (Model/NodalEnriched.lean): largest derivative matrices with the allclose check, merged coefficients, nodes, entity ids, Ciarlet inversion | one hierarchical sequence of polynomials serves all degrees (factor in degree 0), so derivative matrices are leading blocks of each other and padded rows are multiples of the old functions; determinant nonzero iff direct and separating |
| C65 | `kmvElement` (Model/KMV.lean): guards, space by `nodalEnriched` of restricted Lagrange and bubbles, entity-id tables, lumped rule of `kmvLumpScheme` (Model/QuadratureSchemes.lean), Ciarlet inversion | space: direct sum and node separation through C64; unisolvence: products of barycentric coordinates are a basis, and an approximate inverse times their value table is diagonally dominant (checked over ℚ by the kernel); traces: the same for the products supported on the entity |
| C66 | `computeNormal`, `computeReferenceNormal`, `volume`, `computeScaledNormal` (Model/Normals.lean), with `svd`, `qr` and `set.pop` as parameters under a contract | singular values of the edge matrices exceed the tolerance, so the ranks are D and D - 1; the intersection with the whole space is the line of normals; orientation by barycentric forms; volume: product of singular values = square root of the Gram determinant, change of variables for the measure; scaled normals: block determinant with the unit normal as last row |
| C67 | `tensorReferenceNormal`, `flatReferenceNormal`, `tensorVolume` (Model/TensorNormals.lean) over factors given by their own reference normals | the number of a facet of the product is the number of the facet of the factor (the other factors have one entity of full dimension); pairing with differences of vertices splits over the factors; the flattening map is a bijection (C08) and a facet of the flat cell has exactly one reduced factor; volume by the product measure |
| C68 | the dual sets of Lagrange, RT, BDM, N1, N2 on two reference cells and two affine maps (Props/MeshSpec.lean: `InMesh`, `SharedEntity`, `DofsMatch`) | the dofs of an entity are a fixed list of functionals of the trace pulled back to the reference entity (`entity_natural` lemmas); pulling the second function back along the transition map reduces conformity to the single-cell statement of C20/C23 that a trace is zero iff the closure dofs are |
| C69 | `Simplex.get_entity_transform` of every simplex class, `CiarletElement.tabulate`, `IntegralMomentOfScaledNormalEvaluation` on any class (Model/EntityTabulate.lean) | the transform is computed in each branch; a nodal basis reproduces the span, hence every table; for other classes the points collapse to one, and the dictionary of the moment keeps one entry |
| C70 | the loop of `compute_gauss_jacobi_points` (Model/Newton.lean), a division by zero is an exception | the Newton quotient is the logarithmic derivative; near-root bound from the size of the last step; monotone convergence from the left; Legendre's zeros lie right of -cos(pi/(2m)) by the cosine expansion with positive coefficients |
| C71 | `Regge`, `HellanHerrmannJohnson` on two neighbouring cells (the models of C55, C56; mesh specification Props/MeshSpec.lean) | the field of the second cell is pulled back to the first reference cell; the dofs of the difference are the differences of the dofs; C55/C56 turn zero dofs into a zero trace |
| C72 | `Lagrange`, `Nedelec`, `RaviartThomas`, `NedelecSecondKind`, `BrezziDouglasMarini`, `DiscontinuousLagrange`, `P0` end to end (Model/DiscLagrange.lean and the models of C18-C23) | the Koszul homotopy (Lemmas/Koszul.lean) gives potentials inside the spaces; nodality of the elements turns operators between the spaces into matrices between coefficient vectors |
| C73 | `rec_jacobi01`, `mm_log`, `mod_chebyshev`, `rec_jaclog` (Model/JacLog.lean; arithmetic over the reals, `int` and `float` exponents distinguished, nan and exceptions are `none`) | substitution from [-1, 1]; partial fractions and differentiation in the exponent for the logarithmic moments; invariant of the modified Chebyshev passes |
| C74 | the integral variants of `RaviartThomas`, `BrezziDouglasMarini`, `Nedelec` with their nodes and tables, `Lagrange(cell, 1)` | divergence theorem for polynomials on a simplex (Lemmas/DivThm.lean, from the integrals of barycentric monomials); nodes vanish iff moments vanish; Green and Stokes on triangles and faces; unisolvence |
| C75 | `ciarletTab`, `productTab`, `flatOf`, `flattenedDimensions` (Model/QuadElement.lean): `TensorProductElement` of Lagrange elements, nested, and `FlattenedDimensions` | Lagrange elements are continuous elements (traces by restriction to the entity and unisolvence there); the property is carried through products (slice by slice) and flattening; symmetries of the topology of the square and cube (decided over the integers) give the map between shared entities; pull-back by it keeps the degree in each variable |
| C76 | `enrichedElement`, `wrappedPart`, `rtcf`, `rtce` (Model/Rtc.lean) on top of `Hdiv`/`Hcurl` (Model/HdivCurl.lean), `concatenateEntityDofs`, `enrichedTabulate`, `flattenedDimensions` | the wrapped parts tabulate products of line bases times a constant vector; the enriched element tabulates the concatenation; entity dofs from the two products through the unflattening map; edges of the square one by one; the Piola maps keep `t × v` and `t · v`, a bilinear map is affine along edges. Simplification: topologies compared instead of Python classes |
| C77 | `absDiffs`, `npMax`, `mkQuadratureEl`, `QuadratureEl.tabulate` (Model/QuadPoints.lean) | the maximum of the differences is at most 1e-12 iff all are; case analysis of the checks |
| C78 | `npMul`, `projectCoeffs` (Model/QuadPoints.lean) | the tabulation has one key, the zero multi-index; a product with zeros sums to zero; witness on the interval |
| C79 | `crDual` (Model/ScalarElements.lean), cells of a mesh (Props/MeshSpec.lean) | the integral of an affine function over the reference facet is its barycentre value over (D-1)!, by the Dirichlet integral |
| C80 | `pySet`, `maxOrder`, `enrichedInit`, `mixedInit` (Model/EnrichInit.lean) | a set of equal things has one member (equivalence, C42); case analysis of the exceptions |
| C81 | `bernsteinDual`, `bernsteinTabulate`, `mis` (C33), cells of a mesh (Props/MeshSpec.lean) | `mis` is ordered lexicographically and extension of exponents by zero preserves the order, so the dofs of a shared entity come in the same order; the restrictions are Bernstein polynomials of the entity, which are independent by homogenization |
| C82 | `traceInit`, `traceTabulateEntity` (C45), cells of a mesh (Props/MeshSpec.lean) | the values on a facet are the facet element with the coefficients of its own block of dofs; equal facet coordinates are equal points of the shared facet, and nodality of the facet element separates the coefficients |
| C83 | `serendipity2` (C34), cells of a mesh (Props/QMesh.lean) | a permutation of the directions matches the entities and the functions of their sub-entities (checked over the finite topology); functions which agree on the entity have equal coefficients by independence of the basis, after factoring out the directions fixed on the entity |
| C84 | `serendipity3` | as C83; for degrees above 4 the order of the two directions in `f_lambda_0` differs between faces, and two cubes sharing a face refute the claim |
| C85 | `bdfmDual` (C59), cells of a mesh (Props/MeshSpec.lean) | the edge dofs are values of the normal trace at the lattice points of the edge (`bdfm_natural`), which determine it because it is linear; then `div_conforming_core` |
| C86 | `kmvElement` on the UFC triangle (C65), cells of a mesh (Props/MeshSpec.lean) | a permutation of the vertices takes the shared entity of one cell to that of the other; the space is invariant under it, the dofs are values at points with the same coordinates on every entity, and the trace is determined by the dofs of the closure (C65) |
| C87 | `kmvElement` on the UFC tetrahedron | as C86, where the dof points of a facet have the same coordinates; facet 0 is refuted with an explicit polynomial |
| C88 | `lagrangeElement`, `discontinuousLagrange`, `crouzeixRaviart`, `cubicHermite`; `declaredMapping` (Model/Mapping.lean: the `mapping` argument of the constructors) | the lattice points of an entity are carried to those of its image, so the nodes correspond; the composition with the map is a dual basis of the same nodes, and dual bases are unique; Hermite is refuted: its derivative at a vertex of an interval scaled by 2 |
| C89 | `raviartThomas`, `bdm`, `nedelec`, `nedelec2` and their duals; `declaredMapping` | the facet dofs are functionals of the pulled-back trace (the same functional on every cell), and traces of the two fields have the same pull-back; with no interior dofs the dual basis is unique; point evaluations of components in the interior are refuted |
| C90 | `regge`, `hellanHerrmannJohnson` and their duals; `declaredMatrixMapping` | edge tangents and lattice points of the image are images, so `t^T u t` is preserved by the double covariant transform; scaled normals correspond, so `n^T u n` is preserved by the double contravariant one; uniqueness of the dual basis; entries of the matrix at interior points are refuted |
| C91 | `bernsteinTabulate`, `morley`, `argyris`, `bell`, `discontinuousTaylor`; `declaredMapping` | barycentric coordinates pull back to barycentric coordinates; a first-derivative dof is multiplied by c under a scaling, which contradicts duality of the two bases |
| C92 | `mardalTaiWinther`, `brezziDouglasFortinMarini`, `arnoldWinther`, `arnoldWintherNC`; `declaredMapping`, `declaredMatrixMapping` | the span of the basis functions is characterised by divergence and edge conditions (C59, C60, C61, C62); the Piola transforms map divergences to divergences and normal components to normal components; the inverse map gives the converse |
| C93 | `gaussLegendreElement`, `gaussLobattoElement`, `gaussRadauElement`, `LineElement.tabulate`; `declaredMapping` | the nodes are images of the same reference points under the two affine maps of the quadrature rules, so that those of the second cell are the images of those of the first; the nodal basis of a polynomial space on a line is unique |

## Trusted base

Lean 4.33.0 kernel; axioms used by the theorems: at most `propext`, `Classical.choice`, `Quot.sound`
(checked with `#print axioms`).  The faithfulness of the hand translation from Python.

Parameters of the model with contracts (each contract is an explicit hypothesis, never an axiom, and is shown to be
satisfiable next to the theorems): the Gauss-Jacobi / Radau nodes (`NodesOK`: the Newton iterations of the code converged
to the zeros; C70 proves what the iteration guarantees), the SVD (`IsSVD`, `SvdGap`), the symmetric eigenvalue solver (`IsEigh`), the full SVD and the QR factorisation used for normals (`LinAlgOK`), the normals of a cell (`FacetNormals`, proved for the UFC cells and, in C66, for every cell that is not tiny), the
table of characters `\d` matches (`DigitTable`).

The moment functionals on edges and faces (`mapToEntity`, the facet cell `ufcSimplexCell`) are modelled for `UFCSimplex` cells with
arbitrary vertices: that is where `construct_subelement` exists.  For the other simplex classes the theorems about integral variants do
not apply; C69 proves what the code does there.

### What is modelled (by file of /repo/FIAT)

| file | modelled | not modelled |
|------|----------|--------------|
| reference_element.py | lattice, topology and connectivity of `Cell`, tensor-product topology, flattening, entity transforms, UFC cells, UFC normals and tangents, the generic normals and volumes of `Simplex`, reference normals and volumes of products, `make_affine_mapping`, `contains_point`, `ufc_cell`, equality/hash | `numpy.linalg.svd`/`qr` are parameters with a contract (C66) |
| polynomial_set.py | `mis`, `PolynomialSet` tabulation, ON sets (scalar, vector, symmetric tensor), unions by SVD | the dtype/shape checks of numpy |
| expansions.py | point, line, triangle, tetrahedron expansion sets (values, derivatives by matrices), dimensions | `tabulate_jet` helpers through sympy |
| jacobi.py, orthopoly.py | recurrences, derivatives, recursion coefficients, `gauss`, `lobatto`, `rec_jacobi01`, `mm_log`, `mod_chebyshev`, `rec_jaclog` | |
| quadrature.py, quadrature_schemes.py | Gauss-Jacobi, Gauss-Legendre, Gauss-Lobatto-Legendre, collapsed, Radau, affine maps, products, `make_quadrature`, `create_quadrature`, all tables, the Newton loop itself (C70) | unconditional convergence of the Newton loop for the second and later points |
| functional.py, dual_set.py, pointwise_dual.py | every functional class except `TensorBidirectionalMomentInnerProductEvaluation`, `to_riesz` both ways, closure ids | `__str__`/tags |
| finite_element.py | `CiarletElement`, tabulate, `entity_support_dofs` | |
| lagrange, gauss_legendre, gauss_lobatto_legendre, gauss_radau, discontinuous_*, P0 (C72; `P0` on a point not modelled), quadrature_element, bernstein, serendipity, hdiv_trace, crouzeix-raviart-like block loops | numbering, nodes, tabulation | |
| raviart_thomas, brezzi_douglas_marini, nedelec, nedelec_second_kind | spaces, duals, the resulting element | |
| mixed, enriched, nodal_enriched, restricted, tensor_product, hdivcurl | numbering and tabulation; NodalEnrichedElement as a Ciarlet element | caching, `is_nodal` flags |
| check_format_variant | the regular expression and decision logic | unicode digits beyond `DigitTable` |
| argyris, morley, hermite, bell, crouzeix_raviart, discontinuous_taylor | dual sets and the resulting Ciarlet elements (`functionalElement`) | shape tests (by type) |
| regge, hellan_herrmann_johnson | dual sets, symmetric polynomial set, the resulting Ciarlet element | mapping strings |
| bubble, discontinuous_raviart_thomas | the resulting Ciarlet elements | |
| brezzi_douglas_fortin_marini | everything | |
| mardal_tai_winther | everything | |
| arnold_winther | everything | |
| discontinuous_pc | everything (DPC of a point excepted) | |
| kong_mulder_veldhuizen | everything | |

Observable details of Python not modelled anywhere: rounding, aliasing of numpy arrays (except in C39), memory, warnings.
