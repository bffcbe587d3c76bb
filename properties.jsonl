{"id": "C01", "title": "Multi-index enumeration is complete and duplicate-free", "statement": "For every m >= 1 and n >= 0, polynomial_set.mis(m, n) returns exactly the m-tuples of non-negative integers whose sum is n, each exactly once, and therefore C(n+m-1, m-1) of them; tabulate(order, pts) on an m-dimensional cell thus has exactly one key per derivative of each order. For m = 0 and n >= 1 the call does not return.", "quantifier": "all lengths m and all sums n", "why_tests_cant": "the enumeration is unbounded in m and n; a test can only try small pairs, a missed or repeated tuple at a larger order corrupts every derivative table", "anchors": ["FIAT/polynomial_set.py:mis", "FIAT/polynomial_set.py:PolynomialSet.tabulate"]}
{"id": "C02", "title": "Simplex lattice enumeration is complete and duplicate-free", "statement": "For every order n, interior offset k and dimension d >= 1, the index tuples used by make_lattice are exactly the integer d-tuples with all entries >= k and sum <= n-k, each exactly once; their number is C(n - (d+1)k + d, d) when n >= (d+1)k and 0 when no such tuple exists.", "quantifier": "all orders n, interior offsets k, dimensions d", "why_tests_cant": "unbounded in order and dimension; off-by-one errors show up only for specific interior/order combinations", "anchors": ["FIAT/reference_element.py:lattice_iter", "FIAT/reference_element.py:make_lattice"]}
{"id": "C03", "title": "Lattice points lie where they are documented to lie", "statement": "For every simplex given by vertices v0..vd and order n >= 1, make_lattice(verts, n, k) returns points that are convex combinations of the vertices with all barycentric coordinates >= k/n (so strictly interior for k >= 1), points are pairwise distinct when the vertices are affinely independent, and n = 1, k = 0 returns the vertices.", "quantifier": "all vertex sets (any spatial dimension), all orders and offsets", "why_tests_cant": "continuous family of simplices and unbounded order", "anchors": ["FIAT/reference_element.py:make_lattice", "FIAT/reference_element.py:Simplex.make_points"]}
{"id": "C04", "title": "polynomial_dimension is the true dimension of P_k", "statement": "For every simplex shape of dimension 1,2,3 and every degree k >= 0, polynomial_dimension and get_num_members return the dimension of the space of polynomials of total degree at most k; for negative k polynomial_dimension returns 0.", "quantifier": "all integer degrees, all supported shapes", "why_tests_cant": "the degree is unbounded; closed formulas with integer division can go wrong for degrees tests never use", "anchors": ["FIAT/expansions.py:polynomial_dimension", "FIAT/expansions.py:TriangleExpansionSet.get_num_members", "FIAT/expansions.py:TetrahedronExpansionSet.get_num_members"]}
{"id": "C05", "title": "Entity containment is exactly vertex containment", "statement": "For every cell built from a topology, the recorded sub-entities of an entity are exactly the entities whose vertices all belong to it, in sorted order, each once; the entity itself is among them; get_connectivity()[(d0,d1)] lists for the d0-entities in order their d1-sub-entities.", "quantifier": "all topologies (arbitrary dictionaries), all entities", "why_tests_cant": "holds for every topology dictionary, including those of arbitrary tensor-product cells", "anchors": ["FIAT/reference_element.py:Cell.__init__", "FIAT/reference_element.py:Cell.get_connectivity"]}
{"id": "C06", "title": "entity_closure_dofs is the sorted union over the closure", "statement": "For every cell whose entities only contain entities of no larger dimension (all shipped cells and their tensor products) and every entity_dofs numbering, entity_closure_dofs()[dim][e] exists for every entity and is the sorted list of all dofs of entities contained in (dim, e).", "quantifier": "all topologies in the class, all dof numberings", "why_tests_cant": "the code stores under the loop variable of an inner loop, so correctness depends on an ordering argument over every topology", "anchors": ["FIAT/dual_set.py:DualSet.__init__", "FIAT/dual_set.py:make_entity_closure_ids", "FIAT/finite_element.py:FiniteElement.entity_closure_dofs"]}
{"id": "C07", "title": "Tensor-product cell topology is the product topology", "statement": "For every list of cells, TensorProductCell has as vertices the concatenations of factor vertices in lexicographic order, and entity number i of dimension (d1,...,dk) is the product of the factor entities obtained by unravelling i in row-major order: a product vertex belongs to it iff each factor vertex belongs to the factor entity.", "quantifier": "all numbers of factors and all factor cells", "why_tests_cant": "arbitrary products; index arithmetic must agree for every shape", "anchors": ["FIAT/reference_element.py:TensorProductCell.__init__"]}
{"id": "C08", "title": "Flattening and unflattening of entities are mutually inverse", "statement": "For every tensor-product topology, compute_unflattening_map is a bijection between flattened entities (d, i) and product entities (dims, e) with d = sum(dims), and flatten_entities(...)[d][i] is the original value at the unflattened entity; so quadrilateral/hexahedron entity numbers are consistent with the product cell.", "quantifier": "all tensor-product topology dictionaries", "why_tests_cant": "two independent traversals must produce the same numbering for every topology", "anchors": ["FIAT/reference_element.py:flatten_entities", "FIAT/reference_element.py:compute_unflattening_map", "FIAT/tensor_product.py:FlattenedDimensions"]}
{"id": "C09", "title": "Entity transforms map the reference sub-cell onto the entity", "statement": "For every UFC simplex and sub-entity, get_entity_transform is affine and maps the vertices of the reference sub-cell, in order, to the vertices of the entity; hence every point with barycentric coordinates c goes to the point of the entity with the same coordinates. On tensor-product cells the transform is the product of the factor transforms.", "quantifier": "all points of the reference sub-entity, all entities, all products", "why_tests_cant": "must hold at every point, not at sampled ones", "anchors": ["FIAT/reference_element.py:Simplex.get_entity_transform", "FIAT/reference_element.py:TensorProductCell.get_entity_transform"]}
{"id": "C10", "title": "make_affine_mapping maps vertices to vertices and is unique", "statement": "For every pair of vertex lists xs (affinely independent simplex) and ys of the same length, the pair (A,b) returned satisfies A x_i + b = y_i for all i and is the only such pair; lists of different length are rejected.", "quantifier": "all simplices xs and all images ys in any dimension", "why_tests_cant": "continuous family of simplices", "anchors": ["FIAT/reference_element.py:make_affine_mapping"]}
{"id": "C11", "title": "UFC facet normals", "statement": "compute_normal(i) on the UFC triangle and tetrahedron returns a vector orthogonal to every tangent of facet i and of unit length.", "quantifier": "all facets; all triangles/tetrahedra with the UFC facet numbering", "why_tests_cant": "the orthogonality must hold for arbitrary vertex coordinates", "anchors": ["FIAT/reference_element.py:UFCTriangle.compute_normal", "FIAT/reference_element.py:UFCTetrahedron.compute_normal"]}
{"id": "C12", "title": "contains_point is membership in the closed cell", "statement": "On UFC simplices and tensor-product cells contains_point(x) with epsilon = 0 is true iff x is a convex combination of the cell's vertices (factor-wise for products); it is monotone in epsilon.", "quantifier": "all points, all epsilon >= 0, all products of UFC simplices", "why_tests_cant": "continuum of points", "anchors": ["FIAT/reference_element.py:UFCSimplex.contains_point", "FIAT/reference_element.py:TensorProductCell.contains_point"]}
{"id": "C13", "title": "eval_jacobi computes the classical Jacobi polynomials", "statement": "For all a, b >= 0 (a,b > -1 avoiding vanishing recurrence denominators) and all n, eval_jacobi(a,b,n,x) equals the classical Jacobi polynomial P_n^(a,b)(x) given by its explicit binomial sum, as an identity in x; eval_jacobi_batch returns the same values in row k, column j.", "quantifier": "all degrees n, weights a,b and points x", "why_tests_cant": "recurrence with three-term coefficients, unbounded degree", "anchors": ["FIAT/jacobi.py:eval_jacobi", "FIAT/jacobi.py:eval_jacobi_batch"]}
{"id": "C14", "title": "eval_jacobi_deriv is the derivative of eval_jacobi", "statement": "For all n, a, b and x, eval_jacobi_deriv(a,b,n,x) is the derivative at x of t -> eval_jacobi(a,b,n,t), and the batch version agrees with it.", "quantifier": "all degrees, weights, points", "why_tests_cant": "an identity between two different recurrences at unbounded degree", "anchors": ["FIAT/jacobi.py:eval_jacobi_deriv", "FIAT/jacobi.py:eval_jacobi_deriv_batch"]}
{"id": "C15", "title": "The orthonormal expansion sets are hierarchical bases of P_n", "statement": "For every n, tabulating the line / triangle / tetrahedron expansion set of degree n yields polynomials; the first dim P_k of them have total degree <= k and form a basis of P_k, for every k <= n; every entry of the returned table is defined (no slot is left None and none is read before it is written).", "quantifier": "all degrees n, all affine simplices, all points", "why_tests_cant": "unbounded degree; the index arithmetic idx(p,q,r) must be a bijection for every degree", "anchors": ["FIAT/expansions.py:LineExpansionSet.tabulate", "FIAT/expansions.py:TriangleExpansionSet._tabulate", "FIAT/expansions.py:TetrahedronExpansionSet._tabulate"]}
{"id": "C16", "title": "The expansion sets are orthonormal on the base simplex", "statement": "On the default (-1,1) simplex the members of the expansion set satisfy integral(phi_i phi_j) = delta_ij for every degree.", "quantifier": "all degrees, all pairs of members", "why_tests_cant": "infinitely many integrals", "anchors": ["FIAT/expansions.py"]}
{"id": "C17", "title": "Tabulated derivatives are the true partial derivatives", "statement": "For every polynomial set whose dmats were computed by the code's collocation procedure at unisolvent points, PolynomialSet.tabulate(pts, order)[alpha] equals the values of the alpha-th partial derivative of each member at each point, for every multi-index alpha of every order.", "quantifier": "all polynomial sets, all derivative orders, all points, all affine simplices (intervals with increasing vertices)", "why_tests_cant": "derivatives of arbitrary order at arbitrary points", "anchors": ["FIAT/polynomial_set.py:PolynomialSet.tabulate", "FIAT/polynomial_set.py:form_matrix_product", "FIAT/polynomial_set.py:ONPolynomialSet.__init__"]}
{"id": "C18", "title": "CiarletElement produces the nodal basis", "statement": "Whenever the generalized Vandermonde matrix is invertible, the basis functions of a CiarletElement satisfy node_i(phi_j) = delta_ij, span the same space as the input polynomial set, and do not depend on which basis of that space was supplied; this holds for scalar-, vector- and tensor-valued spaces.", "quantifier": "all polynomial sets and dual sets", "why_tests_cant": "the statement is about every element family at every degree", "anchors": ["FIAT/finite_element.py:CiarletElement.__init__"]}
{"id": "C19", "title": "to_riesz represents the functional", "statement": "For every functional (any point and derivative dictionaries) and polynomial f given by expansion coefficients, contracting to_riesz with the coefficients equals the functional applied to f; DualSet.to_riesz has as its i-th slice the to_riesz of node i, although it regroups the evaluation points of all nodes, whenever some node has a derivative of positive order or no node has derivative entries (otherwise DualSet.to_riesz drops the order-zero derivative entries).", "quantifier": "all functionals, all dual sets, all coefficient arrays", "why_tests_cant": "arbitrary overlapping point sets; the regrouping by point must not lose or double any contribution", "anchors": ["FIAT/functional.py:Functional.to_riesz", "FIAT/dual_set.py:DualSet.to_riesz"]}
{"id": "C20", "title": "Lagrange is unisolvent for every degree", "statement": "For every degree k >= 1 and every nondegenerate simplex of dimension 1, 2, 3, a polynomial of degree <= k vanishing at all nodes of Lagrange(cell, k) is zero, and the number of nodes is dim P_k, so the constructor never meets a singular matrix; the same holds for the interior lattice used to compute derivatives.", "quantifier": "all degrees and simplices", "why_tests_cant": "unbounded degree; tests only reach small degrees", "anchors": ["FIAT/lagrange.py:LagrangeDualSet", "FIAT/polynomial_set.py:ONPolynomialSet.__init__"]}
{"id": "C21", "title": "Lagrange dofs are numbered by entity and give C0 continuity", "statement": "For every degree, Lagrange's entity_dofs partition range(space_dimension()) in increasing order of dimension and entity; the node of a dof attached to an entity lies in the relative interior of that entity; a basis function whose dof is not in the closure of entity E vanishes identically on E.", "quantifier": "all degrees, all simplices, all entities", "why_tests_cant": "unbounded degree", "anchors": ["FIAT/lagrange.py:LagrangeDualSet", "FIAT/dual_set.py:DualSet"]}
{"id": "C22", "title": "Discontinuous elements attach every dof to the cell", "statement": "DiscontinuousLagrange, DiscontinuousElement, P0 and QuadratureElement report every dof on the cell entity and none elsewhere, with the nodes of the underlying element in the same order.", "quantifier": "all elements / degrees / cells", "why_tests_cant": "unbounded degree, arbitrary wrapped element", "anchors": ["FIAT/discontinuous_lagrange.py", "FIAT/discontinuous.py", "FIAT/P0.py", "FIAT/quadrature_element.py"]}
{"id": "C23", "title": "H(div)/H(curl) element dofs partition the nodes", "statement": "For Raviart-Thomas, BDM, Nedelec first and second kind, for every degree and both variants, entity_dofs is a partition of range(number of nodes) although it is computed from point counts while the nodes are created from polynomial counts, and the number of nodes is the classical dimension of the space.", "quantifier": "all degrees, both variants, dimension 2 and 3", "why_tests_cant": "unbounded degree; two independent counts must agree", "anchors": ["FIAT/raviart_thomas.py:RTDualSet", "FIAT/nedelec.py", "FIAT/brezzi_douglas_marini.py", "FIAT/nedelec_second_kind.py"]}
{"id": "C24", "title": "Mixed and enriched elements concatenate dofs without collision", "statement": "For every list of elements whose entity_dofs partition their dofs, MixedElement / EnrichedElement / NodalEnrichedElement entity_dofs partition range(total), dof j of element i appears as offset_i + j on the same entity, and the tabulation places element i's table in rows offset_i.. (and, for mixed, in its own component block, zero elsewhere).", "quantifier": "all lists of elements", "why_tests_cant": "arbitrary number of arbitrary sub-elements", "anchors": ["FIAT/mixed.py", "FIAT/enriched.py", "FIAT/nodal_enriched.py:_merge_entity_ids"]}
{"id": "C25", "title": "RestrictedElement keeps exactly the chosen dofs", "statement": "For every element and every valid index list, the restricted element has the chosen nodes, renumbered 0.. in entity order, each on the entity it had; its basis functions are the original basis functions of these dofs; empty or duplicated selections are rejected; restriction domains select exactly the dofs on entities of at most the stated dimension (or the cell interior).", "quantifier": "all elements, all index lists, all restriction domains", "why_tests_cant": "arbitrary selections", "anchors": ["FIAT/restricted.py", "FIAT/bubble.py"]}
{"id": "C26", "title": "Tensor-product element dofs and basis are products", "statement": "For every pair of elements, TensorProductElement's dof x*dim(B)+y lies on the product of the entities of dof x and dof y, entity_dofs is a partition, and the tabulated value / derivative of basis function x*dim(B)+y at (p,q) is the product of the factor tabulations; hence products of nodal point-evaluation elements are nodal.", "quantifier": "all pairs of elements, all derivative orders and points", "why_tests_cant": "arbitrary factors", "anchors": ["FIAT/tensor_product.py:TensorProductElement"]}
{"id": "C27", "title": "Quadrature rules: construction, linearity, products, affine images", "statement": "QuadratureRule rejects mismatched lengths; integrate is linear; the tensor-product rule integrates f(x)g(y) to the product of the factor integrals and is exact for products whenever the factors are; mapping a rule by an affine map with scale det(A) integrates f to det(A) times the reference integral of the pull-back.", "quantifier": "all rules and integrands", "why_tests_cant": "all integrands", "anchors": ["FIAT/quadrature.py:QuadratureRule", "FIAT/quadrature.py:make_tensor_product_quadrature"]}
{"id": "C28", "title": "Gauss-Jacobi rules are exact to degree 2m-1", "statement": "For m >= 1 and natural a, b, the rule with nodes the m distinct roots of P_m^(a,b) and the code's weight formula integrates every polynomial of degree <= 2m-1 exactly against (1-x)^a (1+x)^b on [-1,1], and its weights are positive.", "quantifier": "all m, all polynomials of the degree", "why_tests_cant": "infinitely many polynomials and unbounded m", "anchors": ["FIAT/quadrature.py:compute_gauss_jacobi_rule", "FIAT/quadrature.py:GaussJacobiQuadratureLineRule"]}
{"id": "C29", "title": "Collapsed triangle and tetrahedron rules are exact to degree 2m-1", "statement": "For every m, the collapsed rules on any simplex with positive orientation integrate all polynomials of total degree <= 2m-1 exactly.", "quantifier": "all m, all polynomials, all simplices", "why_tests_cant": "infinitely many polynomials", "anchors": ["FIAT/quadrature.py:CollapsedQuadratureTriangleRule", "FIAT/quadrature.py:CollapsedQuadratureTetrahedronRule", "FIAT/expansions.py:xi_triangle", "FIAT/expansions.py:xi_tetrahedron"]}
{"id": "C30", "title": "create_quadrature meets the requested degree", "statement": "For every supported cell and degree >= 0 with scheme canonical, create_quadrature(cell, degree) returns a rule exact for polynomials of that degree; negative degrees and unknown schemes are rejected; tensor-product cells broadcast a scalar degree and reject a degree tuple of the wrong length.", "quantifier": "all cells, all degrees", "why_tests_cant": "unbounded degree", "anchors": ["FIAT/quadrature_schemes.py:create_quadrature", "FIAT/quadrature_schemes.py:_fiat_scheme"]}
{"id": "C31", "title": "Gauss-Radau precision", "statement": "The Radau rule documented as having degree of precision 2m-1 integrates every polynomial of degree <= 2m-1 exactly.", "quantifier": "all m", "why_tests_cant": "needs a statement about all polynomials of a degree", "anchors": ["FIAT/quadrature.py:RadauQuadratureLineRule"]}
{"id": "C32", "title": "Barycentric interpolation tabulates the Lagrange basis and its derivatives", "statement": "For every list of distinct nodes and evaluation point that is a node or not within the tolerance of one, barycentric_interpolation(...)[(k,)] is the k-th derivative of the Lagrange basis polynomials at the points, for every order k.", "quantifier": "all node sets, points and orders", "why_tests_cant": "continuum of nodes and points, unbounded order", "anchors": ["FIAT/barycentric_interpolation.py:barycentric_interpolation"]}
{"id": "C33", "title": "Bernstein basis: values, derivatives, entity association", "statement": "Bernstein(cell, n).tabulate returns the Bernstein polynomials n!/k! lambda^k and their derivatives of every order; they sum to one; a dof is attached to the entity spanned by the vertices with non-zero exponent, and vanishes on every entity not containing it.", "quantifier": "all degrees, orders, points", "why_tests_cant": "unbounded degree and order", "anchors": ["FIAT/bernstein.py:bernstein_db", "FIAT/bernstein.py:bernstein_Dx", "FIAT/bernstein.py:BernsteinDualSet"]}
{"id": "C34", "title": "Serendipity dofs: count and entity association", "statement": "For every degree >= 1 on quadrilaterals and hexahedra the number of basis functions equals the number of dofs assigned to entities and the classical dimension; a basis function attached to an entity vanishes on every closed entity that does not contain it; the number of unisolvent points equals the number of basis functions.", "quantifier": "all degrees, all points of the entities", "why_tests_cant": "unbounded degree", "anchors": ["FIAT/serendipity.py:Serendipity.__init__", "FIAT/serendipity.py:tr"]}
{"id": "C35", "title": "Trace element facet geometry", "statement": "barycentric_coordinates reproduces every point; extract_unique_facet reports facet i iff i is the only coordinate that is below tolerance at all points; map_to_reference_facet inverts the facet's entity transform; tabulate on a facet fills exactly that facet's dof block, on other entities or for derivatives yields TraceError values.", "quantifier": "all points and facets of triangles and tetrahedra", "why_tests_cant": "continuum of points", "anchors": ["FIAT/hdiv_trace.py"]}
{"id": "C36", "title": "Hdiv/Hcurl wrappers place components and signs correctly", "statement": "Hdiv/Hcurl accept exactly the tensor-product elements of the right form degree; the resulting vector field has the scalar or vector input in the documented component block, rotated by a quarter turn when the Piola type changes, and zero elsewhere.", "quantifier": "all tensor-product elements with form degrees set", "why_tests_cant": "arbitrary factors", "anchors": ["FIAT/hdivcurl.py:Hdiv", "FIAT/hdivcurl.py:Hcurl"]}
{"id": "C37", "title": "Variant strings are parsed as documented", "statement": "check_format_variant returns ('point', None) for 'point' (and None), ('integral', 5(degree+1)) for 'integral', ('integral', q) for 'integral(q)' with q >= degree+1, and raises for a smaller q or any other string.", "quantifier": "all strings and degrees", "why_tests_cant": "all strings", "anchors": ["FIAT/check_format_variant.py:check_format_variant"]}
{"id": "C38", "title": "Functionals compute what their names say", "statement": "Each functional class applied (through its dictionaries) to a smooth field gives the documented quantity: point value, component, derivative, normal derivative v.grad, v.n, v.t, moments against the given function, v^T u w, divergence moments, second normal derivative.", "quantifier": "all fields, points, normals, quadrature rules", "why_tests_cant": "all fields", "anchors": ["FIAT/functional.py"]}
{"id": "C39", "title": "entity_support_dofs is cached transparently", "statement": "For every history of calls with arbitrary entity dimensions, entity_support_dofs returns for each call what a fresh computation would return, and a dof is listed for entity f iff the integral of its squared basis function over f exceeds the threshold.", "quantifier": "all call histories", "why_tests_cant": "all histories", "anchors": ["FIAT/finite_element.py:entity_support_dofs"]}
{"id": "C40", "title": "Vector- and tensor-valued polynomial sets", "statement": "index_iterator enumerates all multi-indices of a shape once in lexicographic order; ONPolynomialSet with a shape contains exactly the products of a unit tensor and an expansion function, each once; ONSymTensorPolynomialSet spans exactly the symmetric-tensor-valued polynomials.", "quantifier": "all shapes, degrees", "why_tests_cant": "unbounded shapes and degrees", "anchors": ["FIAT/functional.py:index_iterator", "FIAT/polynomial_set.py:ONPolynomialSet", "FIAT/polynomial_set.py:ONSymTensorPolynomialSet"]}
{"id": "C41", "title": "Pointwise dual is exact on the space", "statement": "For every element and unisolvent point set, applying the i-th functional of compute_pointwise_dual to basis function j gives delta_ij (coefficients below the cut-off aside).", "quantifier": "all elements and point sets", "why_tests_cant": "all spaces", "anchors": ["FIAT/pointwise_dual.py:compute_pointwise_dual"]}
{"id": "C42", "title": "Cell equality is an equivalence consistent with hashing", "statement": "Cell == is reflexive, symmetric and transitive, != is its negation and equal cells have equal hashes; tensor-product cells are equal iff their factors are.", "quantifier": "all cells, arbitrarily nested", "why_tests_cant": "all nested products", "anchors": ["FIAT/reference_element.py:Cell.__eq__", "FIAT/reference_element.py:TensorProductCell._key"]}
{"id": "C43", "title": "Cell names round-trip through ufc_cell", "statement": "ufc_cell maps each cell name to the cell, ' * '-joined names to the tensor product of the parts in order, and rejects every other string.", "quantifier": "all strings", "why_tests_cant": "all strings / all products", "anchors": ["FIAT/reference_element.py:ufc_cell", "FIAT/reference_element.py:ufc_simplex", "FIAT/reference_element.py:default_simplex"]}
{"id": "C44", "title": "Hard-coded quadrature tables integrate their degree", "statement": "The tables of _triangle_scheme, _tetrahedron_scheme and _kmv_lump_scheme with rational data integrate every polynomial of the stated degree exactly on the UFC cell.", "quantifier": "all polynomials of the degree", "why_tests_cant": "infinitely many polynomials", "anchors": ["FIAT/quadrature_schemes.py:_triangle_scheme", "FIAT/quadrature_schemes.py:_tetrahedron_scheme"]}
{"id": "C45", "title": "Recursion coefficients generate the monic Jacobi polynomials", "statement": "orthopoly.rec_jacobi coefficients fed to polyval generate the monic orthogonal polynomials for the Jacobi weight, i.e. the eval_jacobi polynomials divided by their leading coefficient; orthopoly.jacobi agrees with eval_jacobi and jacobiD with its derivative.", "quantifier": "all degrees and weights", "why_tests_cant": "unbounded degree", "anchors": ["FIAT/orthopoly.py:rec_jacobi", "FIAT/orthopoly.py:polyval", "FIAT/orthopoly.py:jacobi", "FIAT/orthopoly.py:jacobiD"]}
{"id": "C46", "title": "Gauss-Lobatto-Legendre line rule has precision 2m-3 and contains both vertices", "statement": "For every m >= 2 and every interval, GaussLobattoLegendreQuadratureLineRule(ref_el, m) has m points, the first and last are the vertices of the interval, the others lie strictly inside, all weights are positive and the rule integrates every polynomial of degree <= 2m-3 exactly; for m < 2 the constructor raises.", "quantifier": "all m, all intervals, all polynomials of degree <= 2m-3", "why_tests_cant": "unbounded m and infinitely many polynomials", "anchors": ["FIAT/quadrature.py:GaussLobattoLegendreQuadratureLineRule", "FIAT/orthopoly.py:lobatto", "FIAT/orthopoly.py:gauss"]}
{"id": "C47", "title": "orthopoly.gauss and orthopoly.lobatto give the Gauss and Gauss-Lobatto rules of the recursion coefficients", "statement": "Given the recursion coefficients of the monic orthogonal polynomials of a positive weight, gauss returns the rule with n nodes exact for degree 2n-1 with positive weights and distinct nodes; lobatto returns the rule with the two prescribed end points, exact for degree 2n-3.", "quantifier": "all recursion coefficients of positive functionals, all n, all polynomials of the degree", "why_tests_cant": "infinitely many weights and degrees", "anchors": ["FIAT/orthopoly.py:gauss", "FIAT/orthopoly.py:lobatto", "FIAT/orthopoly.py:rec_jacobi"]}
{"id": "C48", "title": "One-dimensional spectral elements are the Lagrange basis at their quadrature points", "statement": "GaussLegendre, GaussLobattoLegendre and GaussRadau elements of every degree on every interval have degree+1 point-evaluation nodes at the quadrature points of the corresponding rule, their dofs are numbered once each on the right entities, and tabulate returns the Lagrange basis through those points.", "quantifier": "all degrees, all intervals, all points (nodes or away from the nodes)", "why_tests_cant": "unbounded degree, a continuum of points", "anchors": ["FIAT/gauss_legendre.py:GaussLegendre", "FIAT/gauss_lobatto_legendre.py:GaussLobattoLegendre", "FIAT/gauss_radau.py:GaussRadau"]}
{"id": "C49", "title": "Cubic Hermite elements are the nodal basis of P3 for values, gradients and face centroids", "statement": "CubicHermite(cell, 3) on an interval, triangle or tetrahedron: the dofs of vertex v are the value and the first partial derivatives at v, the dof of a triangular face is the value at its centroid, other entities have no dofs; every dof number is used once; tabulate returns the basis of the polynomials of degree 3 dual to the dofs; and if all dofs on the closure of an entity are zero the function vanishes on that entity. Any other degree is rejected.", "quantifier": "all cells (any non-degenerate vertices), all cubic polynomials, all points", "why_tests_cant": "a continuum of cells, polynomials and points", "anchors": ["FIAT/hermite.py:CubicHermiteDualSet", "FIAT/hermite.py:CubicHermite"]}
{"id": "C50", "title": "The Morley element is the nodal basis of P2 for vertex values and midpoint normal derivatives", "statement": "Morley(triangle): the dof of a vertex is the value there, the dof of an edge is the derivative along compute_normal at its midpoint; every dof number is used once; tabulate returns the dual basis of P2; zero dofs on the closure of an edge force the end values and the whole gradient at its midpoint to vanish.", "quantifier": "all non-degenerate triangles, all quadratic polynomials, all points", "why_tests_cant": "a continuum of triangles, polynomials and points", "anchors": ["FIAT/morley.py:MorleyDualSet", "FIAT/morley.py:Morley"]}
{"id": "C51", "title": "Argyris elements of every degree are unisolvent and C1 conforming", "statement": "Argyris(triangle, degree) for degree >= 5: vertex dofs are the 2-jet, edge dofs the normal derivatives and values at equispaced points, interior dofs the values at interior lattice points; every dof number is used once; tabulate returns the dual basis of P_degree; two functions with the same dofs on the closure of an edge agree there with their gradients. QuinticArgyris is Argyris of degree 5. Below degree 5 construction fails.", "quantifier": "all degrees, all non-degenerate triangles, all polynomials, all points", "why_tests_cant": "unbounded degree and a continuum of triangles, polynomials and points", "anchors": ["FIAT/argyris.py:ArgyrisDualSet", "FIAT/argyris.py:QuinticArgyrisDualSet"]}
{"id": "C53", "title": "Crouzeix-Raviart elements are the nodal basis of P1 for the facet midpoints", "statement": "CrouzeixRaviart(cell, 1) on an interval, triangle or tetrahedron: dof number i is the value at the centroid of facet i and belongs to facet i, nothing else has dofs; tabulate returns the dual basis of P1; the dof of an affine function is the mean of its vertex values over the facet. Any other degree is rejected.", "quantifier": "all non-degenerate cells, all affine functions, all points", "why_tests_cant": "a continuum of cells and points", "anchors": ["FIAT/crouzeix_raviart.py:CrouzeixRaviartDualSet", "FIAT/crouzeix_raviart.py:CrouzeixRaviart"]}
{"id": "C52", "title": "The Bell element is the nodal basis of P5 for vertex jets and edge constraints", "statement": "Bell(triangle): vertex dofs are the 2-jet; the dof of edge e, number 18+e, is the moment of the normal derivative along the edge against the fourth Legendre polynomial; every dof number is used once; tabulate returns the dual basis of P5; zero dofs on the closure of an edge force value and gradient to vanish there; the edge dof of a quintic vanishes exactly if its normal derivative along the edge is cubic, so the first 18 basis functions span the Bell space.", "quantifier": "all non-degenerate triangles, all quintic polynomials, all points", "why_tests_cant": "a continuum of triangles, polynomials and points", "anchors": ["FIAT/bell.py:BellDualSet", "FIAT/bell.py:Bell"]}
{"id": "C54", "title": "Discontinuous Taylor elements are the nodal basis for the mean and the derivatives at the barycentre", "statement": "DiscontinuousTaylor(cell, k), k >= 1: the first dof is the integral over the cell, the others are all partial derivatives of order 1..k at the barycentre, sorted by order, each once; all dofs belong to the cell; tabulate returns the dual basis of P_k. For k = 0 it is P0.", "quantifier": "all degrees, all positively oriented simplices, all polynomials, all points", "why_tests_cant": "unbounded degree and a continuum of cells, polynomials and points", "anchors": ["FIAT/discontinuous_taylor.py:DiscontinuousTaylorDualSet", "FIAT/discontinuous_taylor.py:DiscontinuousTaylor"]}
{"id": "C55", "title": "Regge elements: unisolvent tangential-tangential conforming symmetric matrix elements of every degree", "statement": "Regge(cell, r), r >= 0, on a triangle or tetrahedron: the dofs of an entity of dimension >= 1 are the numbers t^T u(x) t at the interior points x of make_points(dim, entity, r+2) for all edge vectors t of the entity; vertices own no dof; every dof number is used once; tabulate returns the basis of the symmetric-matrix-valued polynomials of degree r dual to the dofs; if all dofs on an entity and its sub-entities vanish then t^T u t vanishes on the entity for all tangents, so shared dofs give tangential-tangential continuity. Other dimensions are rejected.", "quantifier": "all degrees, all non-degenerate triangles and tetrahedra, all symmetric polynomial fields, all points", "why_tests_cant": "unbounded degree and a continuum of cells, fields and points", "anchors": ["FIAT/regge.py:ReggeDual", "FIAT/regge.py:Regge", "FIAT/functional.py:PointwiseInnerProductEvaluation", "FIAT/polynomial_set.py:ONSymTensorPolynomialSet", "FIAT/reference_element.py:compute_face_edge_tangents"]}
{"id": "C56", "title": "Hellan-Herrmann-Johnson elements: unisolvent normal-normal conforming symmetric matrix elements of every degree", "statement": "HellanHerrmannJohnson(triangle, r), r >= 0: edge dofs are n^T u(x) n at the r+1 interior points of make_points(1, e, r+2); cell dofs are the entries u_00, u_01, u_11 at the interior points; vertices own no dof; every dof number is used once; tabulate returns the basis of the symmetric-matrix-valued polynomials of degree r dual to the dofs; if the dofs of an edge vanish then n^T u n vanishes on the whole edge.", "quantifier": "all degrees, all non-degenerate triangles, all symmetric polynomial fields, all points", "why_tests_cant": "unbounded degree and a continuum of cells, fields and points", "anchors": ["FIAT/hellan_herrmann_johnson.py:HellanHerrmannJohnsonDual", "FIAT/hellan_herrmann_johnson.py:HellanHerrmannJohnson", "FIAT/functional.py:PointwiseInnerProductEvaluation"]}
{"id": "C57", "title": "Bubble elements span the polynomials vanishing on lower-dimensional entities", "statement": "CodimBubble(cell, k, c) with k > D-c: it has binom(D+1, D-c+1)*binom(k-1, D-c) dofs, the values at the Lagrange points on the entities of dimension D-c; other entities own no dof; tabulate returns the basis dual to the dofs of the space of polynomials of degree <= k vanishing at the other Lagrange points. These functions vanish on all entities of dimension < D-c, and on an entity of dimension D-c they are determined by its own dofs. For Bubble (c=0) the space is all polynomials of degree <= k vanishing on the boundary. If there are no such dofs, or c > D, the constructor raises.", "quantifier": "all degrees, all codimensions, all non-degenerate simplices, all polynomials, all points", "why_tests_cant": "unbounded degree and a continuum of cells and points", "anchors": ["FIAT/bubble.py:CodimBubble", "FIAT/bubble.py:Bubble", "FIAT/bubble.py:FacetBubble", "FIAT/restricted.py:RestrictedElement"]}
{"id": "C58", "title": "Discontinuous Raviart-Thomas is Raviart-Thomas with all dofs on the cell", "statement": "DiscontinuousRaviartThomas(cell, q), q >= 1: its nodes and nodal basis are those of the point variant of RaviartThomas(cell, q), dual to each other in the RT space; entity_dofs lists all dofs under the cell and none elsewhere.", "quantifier": "all degrees, all non-degenerate triangles and tetrahedra, all fields, all points", "why_tests_cant": "unbounded degree and a continuum of cells, fields and points", "anchors": ["FIAT/discontinuous_raviart_thomas.py:DRTDualSet", "FIAT/discontinuous_raviart_thomas.py:DiscontinuousRaviartThomas"]}
{"id": "C59", "title": "The Brezzi-Douglas-Fortin-Marini element", "statement": "BrezziDouglasFortinMarini(cell, 2) on a triangle is a finite element: its space is exactly the fields with quadratic components whose normal component is linear on every edge (dimension 9); entity_dofs is a partition with two dofs per edge, three for the cell and none for vertices; the dofs of an edge vanish exactly when the normal component vanishes there; the tabulated functions are the basis dual to the nodes. Every other degree or dimension is rejected.", "quantifier": "all non-degenerate triangles, all facet normals satisfying their contract, all fields, all points; all degrees and dimensions for rejection", "why_tests_cant": "a continuum of cells, fields and points", "anchors": ["FIAT/brezzi_douglas_fortin_marini.py:BDFMSpace", "FIAT/brezzi_douglas_fortin_marini.py:BDFMDualSet", "FIAT/brezzi_douglas_fortin_marini.py:BrezziDouglasFortinMarini"]}
{"id": "C60", "title": "The Mardal-Tai-Winther element", "statement": "MardalTaiWinther(cell, 3) on a triangle builds a nodal element for the cubic vector fields with 20 degrees of freedom: none on the vertices, five on every edge, five on the cell, each belonging to exactly one entity. tabulate returns every partial derivative of the dual basis at every point. The degrees of freedom of an edge vanish exactly when the normal component vanishes on that edge and the tangential component has zero mean. The first nine basis functions (numbers 3e, 3e+1, 3e+2 for edge e) span exactly the Mardal-Tai-Winther space: cubic fields with constant divergence whose normal component is linear on each edge. Any other degree is rejected.", "quantifier": "every non-degenerate positively oriented triangle, every choice of edge normals, every set of points and every derivative order", "why_tests_cant": "unisolvence and the description of the spanned space hold for every triangle and every polynomial field; a test evaluates finitely many", "anchors": ["FIAT/mardal_tai_winther.py:DivergenceDubinerMoments", "FIAT/mardal_tai_winther.py:MardalTaiWintherDual", "FIAT/mardal_tai_winther.py:MardalTaiWinther", "FIAT/functional.py:IntegralLegendreNormalMoment", "FIAT/functional.py:IntegralMomentOfDivergence"]}
{"id": "C61", "title": "The conforming Arnold-Winther element", "statement": "ArnoldWinther(cell, 3) on a triangle builds a nodal element for the symmetric matrix fields with cubic entries with 30 degrees of freedom, each belonging to exactly one entity: the entries u11, u12, u22 at every vertex, on every edge the constant and linear Legendre moments of the normal-normal and normal-tangential components, on the cell the integrals of the entries and six further functionals. tabulate returns every partial derivative of the dual basis at every point. The degrees of freedom of a closed edge vanish exactly when the field vanishes at both ends and its normal component u n vanishes along the edge (H(div) conformity). The first 24 basis functions span exactly the Arnold-Winther space: cubic symmetric fields whose row-wise divergence is linear. Any other degree is rejected.", "quantifier": "every non-degenerate positively oriented triangle, every choice of edge normals, every set of points and every derivative order", "why_tests_cant": "unisolvence, conformity and the description of the spanned space hold for every triangle and every polynomial field; a test evaluates finitely many", "anchors": ["FIAT/arnold_winther.py:ArnoldWintherDual", "FIAT/arnold_winther.py:ArnoldWinther", "FIAT/functional.py:IntegralLegendreBidirectionalMoment", "FIAT/functional.py:IntegralMomentOfTensorDivergence", "FIAT/functional.py:PointwiseInnerProductEvaluation"]}
{"id": "C62", "title": "The nonconforming Arnold-Winther element", "statement": "ArnoldWintherNC(cell, 2) on a triangle builds a nodal element for the symmetric matrix fields with quadratic entries with 18 degrees of freedom, each belonging to exactly one entity: none on the vertices, five on every edge (constant and linear Legendre moments of the normal-normal and normal-tangential components, and the quadratic normal-normal moment, which is numbered 15 + e), and the integrals of the entries on the cell. tabulate returns every partial derivative of the dual basis at every point. The degrees of freedom of an edge vanish exactly when the normal-normal component vanishes on the edge and the normal-tangential one is orthogonal to linear polynomials there. The first 15 basis functions span exactly the nonconforming Arnold-Winther space: quadratic symmetric fields whose normal-normal component is linear on every edge. Any other degree is rejected.", "quantifier": "every non-degenerate positively oriented triangle, every choice of edge normals, every set of points and every derivative order", "why_tests_cant": "unisolvence and the description of the spanned space hold for every triangle and every polynomial field; a test evaluates finitely many", "anchors": ["FIAT/arnold_winther.py:ArnoldWintherNCDual", "FIAT/arnold_winther.py:ArnoldWintherNC", "FIAT/functional.py:IntegralLegendreNormalNormalMoment", "FIAT/functional.py:IntegralLegendreNormalTangentialMoment", "FIAT/functional.py:FrobeniusIntegralMoment"]}
{"id": "C63", "title": "The DPC element on hypercubes", "statement": "DPC(cell, k) on an interval, a quadrilateral, a hexahedron or a tensor-product cell that flattens to one of them builds a nodal element for the complete polynomials of degree k (not the tensor-product ones): tabulate returns every partial derivative of the basis that is 1 at its own node and 0 at the others. For k = 0 the node is the evaluation at the centre of the cell. For k >= 1 the nodes are the evaluations at the (k+d choose d) different points of an equispaced lattice of a simplex inscribed in the cell. All degrees of freedom belong to the interior of the cell, under the dimension key of the given cell. All nodes lie in the cell on intervals and quadrilaterals; on the hexahedron this is false for every degree k >= 1: (1/2, 3/2, 0) is a node.", "quantifier": "every degree k, every topology of the given cell, every set of points and every derivative order", "why_tests_cant": "unisolvence of the mapped lattice and the position of its points are statements about every degree; a test builds finitely many elements", "anchors": ["FIAT/discontinuous_pc.py:DPC", "FIAT/discontinuous_pc.py:DPC0", "FIAT/discontinuous_pc.py:DPCDualSet", "FIAT/discontinuous_pc.py:HigherOrderDPC", "FIAT/reference_element.py:flatten_reference_cube"]}
{"id": "C64", "title": "NodalEnrichedElement is the nodal element on the direct sum of its parts", "statement": "NodalEnrichedElement(e1, ..., en) of nodal elements on one interval (increasing vertices), triangle or tetrahedron, of any value shapes and degrees, with any mixture of point, derivative and moment nodes, can be constructed exactly when the spaces of the elements form a direct sum and their nodes together separate the sum (only the zero function has all nodes zero); then its space is the sum, its dual basis is the concatenation of the dual bases in order, tabulate returns all derivatives of the basis dual to them, its embedded degree is the largest one, each entity has the renumbered dofs of every element, and the result can itself be an argument of NodalEnrichedElement. In particular Lagrange(k) + Bubble(b), b > D, exists exactly for k <= D. The documented claim that linear independence of the primal bases alone makes the constructor well-defined is false: on the unit interval RestrictedElement(Lagrange(1)) and RestrictedElement(Lagrange(2)), both keeping the value at 1, are independent but the construction fails.", "quantifier": "all finite families of nodal elements on all nondegenerate cells of dimension 1, 2, 3; all degrees k, b", "why_tests_cant": "the tests combine a handful of named elements; solvability is a statement about every family, and the equivalence documented in the class is false in a case no test tries", "anchors": ["FIAT/nodal_enriched.py:NodalEnrichedElement", "FIAT/nodal_enriched.py:_merge_coeffs", "FIAT/nodal_enriched.py:_merge_dmats", "FIAT/nodal_enriched.py:_merge_entity_ids", "FIAT/restricted.py:RestrictedElement", "FIAT/bubble.py:Bubble"]}
{"id": "C65", "title": "The Kong-Mulder-Veldhuizen element is the nodal basis of the lumped quadrature points", "statement": "KongMulderVeldhuizen(cell, k) on the UFC triangle (1 <= k <= 5) and the UFC tetrahedron (1 <= k <= 3) exists; its space is P_k plus the polynomials of degree k + 1 (k + 2 for k = 5 on the triangle; k + 2 on the tetrahedron) that vanish on the boundary plus, on the tetrahedron, those of degree k + 1 that vanish on the edges; tabulate returns all derivatives of the basis of this space dual to the values at the points of the quadrature rule of degree k with scheme 'KMV', whose weights are positive, so that with this rule the mass matrix is diagonal with these weights; order is the largest polynomial degree of the space. Every dof belongs to exactly one entity: a vertex has its vertex, an edge k - 1 points at the same increasing and symmetric parameters from its first to its second vertex, a facet of the tetrahedron points with the same positive barycentric coordinates in the order of its vertices (up to 1e-16 for facet 0, whose points are given by rounded decimals), the cell points strictly inside. A function is zero on an edge, or on a facet of the tetrahedron other than facet 0, as soon as the dofs of its closure are zero. Other degrees and dimensions are refused on every cell.", "quantifier": "all cells and degrees for the refusals; all functions of the space, all points, all derivative orders, every entity and dof for the existing elements", "why_tests_cant": "the tests evaluate the nodes on the basis and integrate sample polynomials in floating point; unisolvence, the trace property and the positions of dofs are statements about all functions of the space and all points of an entity", "anchors": ["FIAT/kong_mulder_veldhuizen.py:KongMulderVeldhuizen", "FIAT/kong_mulder_veldhuizen.py:KongMulderVeldhuizenSpace", "FIAT/kong_mulder_veldhuizen.py:KongMulderVeldhuizenDualSet", "FIAT/kong_mulder_veldhuizen.py:_get_entity_ids", "FIAT/kong_mulder_veldhuizen.py:bump", "FIAT/quadrature_schemes.py:_kmv_lump_scheme"]}
{"id": "C66", "title": "Facet normals and volumes of simplices are the geometric ones", "statement": "On a simplex of any dimension D >= 1 in D-dimensional space whose vertices are affinely independent and not closer than the tolerance 1e-10 of the code, compute_normal(i) returns the one vector of length 1 that is orthogonal to facet i and points out of the simplex, whichever singular vectors and QR factors numpy returns and whichever vertex set.pop() picks; compute_reference_normal returns the positive multiple of it with maximum norm 1 (and refuses other facet dimensions); volume of up to four points returns the positive number whose square is the Gram determinant of the edges over (n!)^2, which in full dimension is the Lebesgue measure of their convex hull; compute_scaled_normal returns the outward normal whose length is the volume of the facet, its product with an edge from the opposite vertex is D times the measure of the simplex, and the scaled normals of all facets add up to zero. A nondegenerate simplex whose edges are shorter than the tolerance makes compute_normal raise, and so does every simplex of dimension other than 1 embedded in a space of another dimension.", "quantifier": "all dimensions, vertices, facet numberings and vertex orders, all singular value and QR decompositions that meet their contract, all choices of set.pop", "why_tests_cant": "the tests look at the reference cells with one LAPACK; the vectors LAPACK returns are only determined up to sign or rotation, and the result has to be independent of that for every shape of cell", "anchors": ["FIAT/reference_element.py:Simplex.compute_normal", "FIAT/reference_element.py:Simplex.compute_reference_normal", "FIAT/reference_element.py:Simplex.compute_scaled_normal", "FIAT/reference_element.py:Simplex.volume_of_subcomplex", "FIAT/reference_element.py:volume", "FIAT/reference_element.py:linalg_subspace_intersection"]}
{"id": "C67", "title": "Reference normals and volumes of tensor-product cells, quadrilaterals and hexahedra", "statement": "On a tensor-product cell, for every facet (a facet of one factor times the other factors), compute_reference_normal returns a vector of maximum norm 1 with one coordinate per space dimension, orthogonal to the facet, that has all vertices of the cell that are not on the facet on one side; it points out of the cell if the reference normals of the factor do. Any facet_dim of the wrong length, or that differs from the dimension of the cell in no or several factors, is rejected. On a flattened product such as UFCQuadrilateral and UFCHexahedron the same holds for every facet of codimension 1 in the flattened numbering, and such cells can be factors again. volume() is the Lebesgue measure of the product. On the prism UFCTriangle x UFCInterval the normal of the facet x = 0 points inward.", "quantifier": "all lists of factors, all facets, all arguments facet_dim", "why_tests_cant": "the facet number has to be matched with the facet of the factor for every combination of cells and every numbering; tests check a few shipped cells", "anchors": ["FIAT/reference_element.py:TensorProductCell.compute_reference_normal", "FIAT/reference_element.py:TensorProductCell.volume", "FIAT/reference_element.py:UFCQuadrilateral.compute_reference_normal", "FIAT/reference_element.py:UFCHexahedron.compute_reference_normal"]}
{"id": "C68", "title": "Conformity across the cells of a mesh", "statement": "Let two cells of a mesh be affine images of reference cells and share an entity, and let every entity list its vertices by increasing mesh number (the UFC ordering). If the dofs that entity_dofs lists for the shared entity and its sub-entities are given the same values, in the listed order, the two finite element functions fit together: Lagrange functions have the same values on the entity, Nedelec functions of the first and second kind, mapped with the covariant Piola map, have the same tangential component on the edge or face, and Raviart-Thomas and Brezzi-Douglas-Marini functions, mapped with the contravariant Piola map, have the same normal component on the facet up to the ratio of the two mapped reference normals. With compute_scaled_normal of UFC cells that ratio is 1. The converse holds too: functions that fit together have matching dofs. All of it for every degree and both the point and the integral variant.", "quantifier": "all reference cells (UFC or not), all affine maps and mesh numberings that respect the ordering, all shared entities, all degrees and variants, all functions of the two spaces", "why_tests_cant": "tests look at one reference cell; conformity is a statement about all pairs of neighbouring cells and all functions", "anchors": ["FIAT/lagrange.py:LagrangeDualSet", "FIAT/raviart_thomas.py:RTDualSet", "FIAT/brezzi_douglas_marini.py:BDMDualSet", "FIAT/nedelec.py:NedelecDual2D", "FIAT/nedelec.py:NedelecDual3D", "FIAT/nedelec_second_kind.py:NedelecSecondKindDual", "FIAT/reference_element.py:UFCSimplex.compute_scaled_normal", "FIAT/finite_element.py:FiniteElement.mapping"]}
{"id": "C69", "title": "Tabulation on entities and interpolation", "statement": "For the tables returned by tabulate(order, points, entity): with entity omitted the points are points of the cell; with entity = (d, e) on a UFC simplex they are points of the reference entity, mapped affinely onto entity e with reference vertex j going to the j-th vertex in the topology. Interpolating any field of an element's space (dofs applied to the field, combined with the tables) reproduces the field and all its derivatives up to the order asked for, on the cell and on every entity. Lagrange functions form a partition of unity in every table (values sum to 1, derivatives to 0). For two neighbouring UFC cells, Lagrange coefficient vectors that agree on the dofs of the shared entity's closure give equal tables on the shared entity. On the simplices that are not UFC cells (DefaultTriangle, IntrepidTriangle, the tetrahedra likewise) this fails for edges and faces: every point of entity e is sent to vertex number e, so that tabulate returns values at that vertex and the facet moments of the integral variants depend on that one value only; there is a lowest-order Raviart-Thomas field with nonzero normal component on facet f all of whose moments on f vanish.", "quantifier": "all nodal elements on simplices of dimension up to 3, all entities, all point lists, orders, degrees and variants; all pairs of neighbouring cells; all fields of the space", "why_tests_cant": "tests tabulate a few degrees on UFC cells; reproduction is a statement about every field, point and derivative, and the silent fallback for other cells is never exercised", "anchors": ["FIAT/finite_element.py:CiarletElement.tabulate", "FIAT/reference_element.py:Simplex.get_entity_transform", "FIAT/functional.py:IntegralMomentOfScaledNormalEvaluation", "FIAT/lagrange.py:Lagrange", "FIAT/raviart_thomas.py:RTDualSet"]}
{"id": "C70", "title": "The Newton iteration for Gauss-Jacobi points", "statement": "compute_gauss_jacobi_points(a, b, m), in exact arithmetic: every pass of its loop computes the deflated Newton correction 1 / (sum over the m zeros of 1/(r - zero) - sum over the points found of 1/(r - point)), so a zero that is not among the points found is a fixed point. Whenever the loop of every point was left by the tolerance test, point k lies within (k+1)(m+k+1) 1e-8 of a zero of the Jacobi polynomial in (-1, 1), and when the points are pairwise more than 4 m^2 1e-8 apart they are, one by one, the m Gauss-Jacobi nodes up to 2 m^2 1e-8. A loop started to the left of all remaining zeros never raises, never passes the smallest of them, and either meets the tolerance or shrinks the error by 1 - 1/n in every pass (n zeros remaining); the Legendre first guess -cos(pi/(2m)) is such a start for every m, so the first point always comes out.", "quantifier": "all integer weights a, b, all m, all starting points and all numbers of passes", "why_tests_cant": "tests run the iteration for a few m; convergence and the link between the stopping test and the true zeros concern every m and every iterate", "anchors": ["FIAT/quadrature.py:compute_gauss_jacobi_points"]}
{"id": "C71", "title": "Regge and Hellan-Herrmann-Johnson elements conform across cells", "statement": "Take two neighbouring cells of a mesh, affine images of reference triangles or tetrahedra whose entities list their vertices by increasing global number. Symmetric fields of degree r from Regge(cell, r), mapped with the double covariant Piola map the element names, agree in all tangential-tangential components on the shared edge or face if and only if their dofs on that entity and its sub-entities are equal one by one in the order of entity_dofs. Fields of HellanHerrmannJohnson(cell, r), mapped with the double contravariant Piola map, agree in the normal-normal component on the shared edge if and only if the edge dofs agree up to the square of the ratio of the two mapped normals; for the scaled normals of UFC cells that ratio is one.", "quantifier": "all degrees r, all pairs of neighbouring cells with any admissible local numbering, all pairs of fields", "why_tests_cant": "FIAT's tests look at one reference cell; agreement of dof order, sign and scaling between two cells concerns every pair of cells, every degree and every field", "anchors": ["FIAT/regge.py:Regge", "FIAT/hellan_herrmann_johnson.py:HellanHerrmannJohnson", "FIAT/reference_element.py:compute_face_edge_tangents", "FIAT/reference_element.py:compute_scaled_normal", "FIAT/functional.py:PointwiseInnerProductEvaluation"]}
{"id": "C72", "title": "The elements form exact de Rham complexes", "statement": "On a tetrahedron the gradient of every function tabulated by Lagrange(k+1) is a function of Nedelec(k+1), the curl of every function of Nedelec(k+1) is one of RaviartThomas(k+1), and the divergence of every function of RaviartThomas(k+1) is one of DiscontinuousLagrange(k), read off the tables of values and first derivatives at every point; each operator is a fixed matrix on coefficient vectors, the kernel of the gradient matrix is the constants, the kernel of the curl matrix is the range of the gradient matrix, the kernel of the divergence matrix is the range of the curl matrix and the divergence matrix is onto. The same holds for Lagrange(k+3), NedelecSecondKind(k+2), BrezziDouglasMarini(k+1), DiscontinuousLagrange(k) on UFCTetrahedron, and on triangles for the gradient/scalar curl and rotated gradient/divergence complexes of both kinds. DiscontinuousLagrange(k) itself is a nodal element for the polynomials of degree k with every dof on the cell.", "quantifier": "all k, all positively oriented triangles and tetrahedra with numbered entities, every variant string, every normal function, every coefficient vector and every point", "why_tests_cant": "tests can compare a few derivatives at a few points for a few degrees; inclusion and exactness of the spaces concern every degree, every cell and every coefficient vector", "anchors": ["FIAT/lagrange.py:Lagrange", "FIAT/nedelec.py:Nedelec", "FIAT/raviart_thomas.py:RaviartThomas", "FIAT/nedelec_second_kind.py:NedelecSecondKind", "FIAT/brezzi_douglas_marini.py:BrezziDouglasMarini", "FIAT/discontinuous_lagrange.py:DiscontinuousLagrange", "FIAT/P0.py:P0"]}
{"id": "C73", "title": "Recursion coefficients for weights on the unit interval", "statement": "rec_jacobi01(N, a, b) returns the coefficients of the three-term recurrence of the polynomials orthogonal on [0, 1] for the weight (1-t)^a t^b, with beta[0] the integral of the weight; mod_chebyshev(N, mom, alpham, betam) turns the moments of a positive functional against any sequence of monic polynomials given by a recurrence into the recurrence coefficients and squared norms of the functional's own orthogonal polynomials; mm_log(N, a) returns the moments of t^a log(1/t) against the monic shifted Legendre polynomials, and rec_jaclog(N, a) the recurrence coefficients for that weight, so that gauss applied to them integrates every polynomial of degree at most 2N-1 against the weight exactly, with N nodes strictly inside the interval and positive weights.", "quantifier": "all N, all real exponents greater than -1 (int or float), all positive functionals on polynomials, all recurrences, all polynomials of the stated degree", "why_tests_cant": "tests compare a few coefficients for a few exponents with tabulated values; the statement concerns every N, every real exponent and every polynomial integrand", "anchors": ["FIAT/orthopoly.py:rec_jacobi01", "FIAT/orthopoly.py:mm_log", "FIAT/orthopoly.py:mod_chebyshev", "FIAT/orthopoly.py:rec_jaclog", "FIAT/orthopoly.py:gauss"]}
{"id": "C74", "title": "Interpolation commutes with grad, curl and div", "statement": "For the integral variants of the H(div) and H(curl) elements, taking the nodal interpolant of a field commutes with the differential operators: the divergence of the interpolant that RaviartThomas(cell, k+1) or BrezziDouglasMarini(cell, k) tabulates is the L2 projection of the divergence of the field onto the polynomials of degree k, respectively k-1; the scalar curl of the interpolant by Nedelec(triangle, k+1) is the L2 projection of the scalar curl onto the polynomials of degree k; the curl of the interpolant by Nedelec(tetrahedron, k+1) is the interpolant of the curl by RaviartThomas(tetrahedron, k+1); the gradient of the linear Lagrange interpolant is the interpolant of the gradient by Nedelec(cell, 1).", "quantifier": "all degrees, all triangles and tetrahedra with positive orientation, all variant strings that select an integral variant, all polynomial fields whose moments the selected quadrature degree integrates exactly, all points of tabulation", "why_tests_cant": "tests interpolate a few polynomials of low degree on the reference cell; the commuting diagram is a statement about every field, degree and cell", "anchors": ["FIAT/raviart_thomas.py:RaviartThomas", "FIAT/brezzi_douglas_marini.py:BrezziDouglasMarini", "FIAT/nedelec.py:Nedelec", "FIAT/lagrange.py:Lagrange", "FIAT/functional.py:IntegralMomentOfScaledNormalEvaluation", "FIAT/functional.py:MonkIntegralMoment", "FIAT/finite_element.py:CiarletElement.tabulate"]}
{"id": "C75", "title": "Lagrange elements on products, quadrilaterals and hexahedra", "statement": "TensorProductElement of scalar continuous elements, and FlattenedDimensions of it, is again a continuous element: its basis is dual to the point evaluations at the pairs of points of its factors, entity_dofs partitions the dofs over the entities of the product (respectively flat) cell, the node of a dof lies on the entity of the dof, tabulate gives all partial derivatives of the basis at the images of the points on any entity, and a function vanishes on an entity exactly if the coefficients of the dofs on its closure do. For Lagrange factors of degree k, l (, m) the space on the quadrilateral (hexahedron) is all polynomials of degree at most k, l (, m) in the respective variable. For equal degrees, functions on two cells of a mesh of (multilinearly mapped) quadrilaterals or hexahedra that share a vertex, edge or face agree on it if and only if the dofs of the shared entity and of its sub-entities are equal in the order of entity_dofs.", "quantifier": "all degrees at least one, all products of elements with the stated properties (nested to any depth), all entities of the cells, all coefficient vectors, all derivative orders and points, all pairs of cells with the shared entity numbered in the same order", "why_tests_cant": "tests tabulate a few product elements of low degree at a few points; the statement ranges over all degrees, nestings, coefficient vectors and pairs of cells", "anchors": ["FIAT/tensor_product.py:TensorProductElement", "FIAT/tensor_product.py:FlattenedDimensions", "FIAT/lagrange.py:Lagrange", "FIAT/reference_element.py:UFCQuadrilateral", "FIAT/reference_element.py:UFCHexahedron", "FIAT/reference_element.py:compute_unflattening_map", "FIAT/reference_element.py:flatten_entities"]}
{"id": "C76", "title": "H(div) and H(curl) elements on quadrilaterals", "statement": "FlattenedDimensions(EnrichedElement(Hdiv(TensorProductElement(A,B)), Hdiv(TensorProductElement(B,A)))) with A = Lagrange(interval,k) and B = DiscontinuousLagrange(interval,l) is an element on the quadrilateral with value shape (2,), mapping 'contravariant piola' and 2(k+1)(l+1) basis functions, which are a basis of the fields with components of degree (k,l) and (l,k); entity_dofs partitions the dofs over the entities, with none on vertices and l+1 on each edge; tabulate gives all partial derivatives of the basis at the images of points on any entity; the flux of a field across an edge depends on the dofs of the edge only, in the same way on all edges. For two bilinearly mapped cells of a mesh that share an edge, listed in the same direction, the fields mapped by the contravariant Piola map have equal normal components along the edge if and only if the dofs of the edge are equal. The same holds with Hcurl, B x A and A x B, 'covariant piola', degrees (l,k) and (k,l), the covariant Piola map and tangential components.", "quantifier": "all degrees k at least one and l, all edges, all coefficient vectors, all derivative orders and points, all pairs of bilinear cells with a shared edge", "why_tests_cant": "tests tabulate a few elements of low degree at a few points; the statement ranges over all degrees, coefficient vectors and pairs of cells", "anchors": ["FIAT/hdivcurl.py:Hdiv", "FIAT/hdivcurl.py:Hcurl", "FIAT/enriched.py:EnrichedElement", "FIAT/tensor_product.py:TensorProductElement", "FIAT/tensor_product.py:FlattenedDimensions", "FIAT/mixed.py:concatenate_entity_dofs"]}
{"id": "C77", "title": "Quadrature elements tabulate the identity at their points", "statement": "QuadratureElement(ref_el, points).tabulate(order, pts, entity) returns a table if and only if order is zero, entity is None or the cell, and pts are as many as the points of the element and agree with them, coordinate by coordinate, up to 1e-12; the table is the identity matrix under the zero multi-index. In particular it accepts its own points, and the values of its node functionals on any function, multiplied by the table, are the values of the function at the points. All dofs belong to the cell.", "quantifier": "all cells of dimension at least one, all nonempty lists of points, all orders, point lists, entities and functions", "why_tests_cant": "tests tabulate one rule; acceptance and rejection range over all inputs", "anchors": ["FIAT/quadrature_element.py:QuadratureElement"]}
{"id": "C78", "title": "project computes expansion coefficients", "statement": "polynomial_set.project(f, U, Q) returns the expansion coefficients of f in the members of U, computed with the quadrature rule Q: entry i is the sum over the points of weight times f times member i.", "quantifier": "all polynomial sets, functions and quadrature rules", "why_tests_cant": "project is not called by any test; the claim ranges over all sets, functions and rules", "anchors": ["FIAT/polynomial_set.py:project"]}
{"id": "C79", "title": "Crouzeix-Raviart functions are weakly continuous across the facets of a mesh", "statement": "Two cells of a mesh, affine images of two reference simplices, share a facet. The dofs which entity_dofs() of CrouzeixRaviart attaches to the facet in the two cells are equal if and only if the jump of the two functions has integral zero over the facet, and if and only if the functions agree at the barycentre of the facet.", "quantifier": "all pairs of nondegenerate reference simplices with numbered entities (interval, triangle, tetrahedron; any vertices), all meshes and pairs of cells that share a facet, all affine functions", "why_tests_cant": "tests do not look across cells; the claim ranges over all meshes and functions", "anchors": ["FIAT/crouzeix_raviart.py:CrouzeixRaviartDualSet", "FIAT/crouzeix_raviart.py:CrouzeixRaviart"]}
{"id": "C80", "title": "EnrichedElement and MixedElement are constructed from compatible elements only", "statement": "EnrichedElement(*elements) succeeds if and only if there is at least one element, all elements have equal cells, equal mappings (at least one basis function) and equal value shapes, and comparable orders; different cells, mappings or value shapes raise ValueError. The result has the cell, mapping and value shape of the elements, their nodes and entity dofs concatenated, the largest order, form degree (None if one is None) and degree. MixedElement(elements, ref_el) succeeds if and only if the cells, including ref_el, are all equal; nodes, dofs and mappings are concatenated, and the value shape is the total number of components.", "quantifier": "all finite lists of elements", "why_tests_cant": "tests construct a few combinations; acceptance and rejection range over all lists of elements", "anchors": ["FIAT/enriched.py:EnrichedElement", "FIAT/mixed.py:MixedElement"]}
{"id": "C81", "title": "Bernstein functions with equal coefficients on a shared entity are continuous across it", "statement": "Two cells of a mesh, affine images of two reference simplices ordered as UFC prescribes, share an entity. The coefficients of the functions which entity_dofs() of Bernstein attaches to the shared entity and its sub-entities, in the order of entity_dofs(), are equal in the two cells if and only if the two functions agree at every point of the shared entity. The functions are the combinations of what Bernstein.tabulate returns.", "quantifier": "all pairs of nondegenerate reference simplices whose entities are listed in increasing vertex order (any dimension, any vertices), all degrees >= 1, all meshes, shared entities and coefficients", "why_tests_cant": "tests do not look across cells; the claim ranges over all degrees, dimensions, meshes and functions", "anchors": ["FIAT/bernstein.py:BernsteinDualSet", "FIAT/bernstein.py:Bernstein.tabulate", "FIAT/polynomial_set.py:mis"]}
{"id": "C82", "title": "Functions of the trace element are single-valued on the facets of a mesh", "statement": "Two cells of a mesh, affine images of two reference simplices with UFC facet numbering, share a facet, and each carries the trace element HDivTrace built from the same element on the facet. For any coefficients, those of the dofs which entity_dofs() attaches to the facet, in its order, are equal in the two cells if and only if the values which tabulate returns for the facet, combined with the coefficients, agree at every point of the shared facet, whatever the coefficients of the other dofs. On each facet the values are those of the facet element with the coefficients of the dofs of that facet.", "quantifier": "all pairs of nondegenerate reference simplices of any dimension, all facet elements with point evaluation dofs, all meshes, shared facets, points and coefficients", "why_tests_cant": "tests tabulate the element on one cell at a few points; the claim ranges over all meshes, facet elements and functions", "anchors": ["FIAT/hdiv_trace.py:HDivTrace", "FIAT/hdiv_trace.py:HDivTrace.tabulate"]}
{"id": "C83", "title": "Serendipity functions on quadrilaterals with equal dofs on a shared edge are continuous across it", "statement": "Two quadrilaterals of a mesh, mapped bilinearly, share an edge whose vertices both list in the same order. There is a map between the points of the edge in the two reference cells that carries each point to one with the same image in the mesh; two functions of the serendipity elements agree at every point of the edge if and only if their coefficients for the dofs which entity_dofs() attaches to the edge and its vertices are equal, in its order.", "quantifier": "all degrees >= 1, all meshes, all pairs of shared vertices, edges or cells, all coefficients", "why_tests_cant": "tests look at one cell; the claim ranges over all degrees, meshes, points and functions", "anchors": ["FIAT/serendipity.py:Serendipity", "FIAT/serendipity.py:e_lambda_0"]}
{"id": "C84", "title": "Serendipity functions on hexahedra with equal dofs on a shared face are continuous across it", "statement": "The same for two hexahedra which share a vertex, an edge or a face, mapped trilinearly, with the vertices of the shared entity listed in the same order by both.", "quantifier": "all degrees >= 1, all meshes, all pairs of shared vertices, edges, faces or cells, all coefficients", "why_tests_cant": "tests look at one cell; the claim ranges over all degrees, meshes, points and functions", "anchors": ["FIAT/serendipity.py:Serendipity", "FIAT/serendipity.py:f_lambda_0"]}
{"id": "C85", "title": "BDFM functions with equal dofs on a shared edge have the same normal component there", "statement": "Two triangles of a mesh share an edge, and functions of BrezziDouglasFortinMarini(cell, 2) on the two cells are mapped with the contravariant Piola map the element names. Their normal components agree at every point of the edge if and only if the two dofs which entity_dofs() attaches to the edge are equal, one by one in its order.", "quantifier": "all meshes of triangles ordered as UFC prescribes, all reference triangles and affine maps, all shared edges, all functions of the space", "why_tests_cant": "tests look at one reference cell; the claim ranges over all meshes, edges and functions", "anchors": ["FIAT/brezzi_douglas_fortin_marini.py:BDFMDualSet", "FIAT/brezzi_douglas_fortin_marini.py:BrezziDouglasFortinMarini"]}
{"id": "C86", "title": "Kong-Mulder-Veldhuizen functions on meshes of triangles are continuous when their dofs agree", "statement": "Two triangles of a mesh, images of the UFC triangle, share a vertex or an edge. Functions of the spaces of KongMulderVeldhuizen(cell, k) on the two cells have the same values on it if and only if the dofs which entity_dofs() attaches to it and to its vertices are equal, one by one in its order.", "quantifier": "all degrees 1..5 that exist, all meshes of triangles ordered as UFC prescribes, all affine maps, all shared entities, all functions of the space", "why_tests_cant": "tests look at one reference cell; the claim ranges over all meshes, shared entities and functions", "anchors": ["FIAT/kong_mulder_veldhuizen.py:KongMulderVeldhuizenDualSet", "FIAT/kong_mulder_veldhuizen.py:KongMulderVeldhuizen"]}
{"id": "C87", "title": "Kong-Mulder-Veldhuizen functions on meshes of tetrahedra are continuous when their dofs agree", "statement": "The same for two tetrahedra which share a vertex, an edge or a facet.", "quantifier": "all degrees 1..3 that exist, all meshes of tetrahedra ordered as UFC prescribes, all affine maps, all shared entities, all functions of the space", "why_tests_cant": "tests look at one reference cell; the claim ranges over all meshes, shared entities and functions", "anchors": ["FIAT/kong_mulder_veldhuizen.py:KongMulderVeldhuizenDualSet", "FIAT/quadrature_schemes.py:_kmv_lump_scheme"]}
{"id": "C88", "title": "The mapping a scalar element reports carries the element of a cell to that of its affine image", "statement": "For a cell s and its image s' under an affine map F, mapping() of the element on s is 'affine' and the basis functions that tabulate() returns on s at points x are, in order, those of the element on s' at F(x), their gradients being related by the chain rule; entity_dofs() are the same. Hence a form compiler may tabulate on the reference cell only.", "quantifier": "Lagrange, discontinuous Lagrange (all degrees), Crouzeix-Raviart and cubic Hermite elements; all non-degenerate intervals, triangles and tetrahedra; all invertible affine maps; all points", "why_tests_cant": "tests look at one reference cell or at one image of it; the claim ranges over all cells, maps, degrees and points", "anchors": ["FIAT/finite_element.py:FiniteElement.mapping", "FIAT/lagrange.py:Lagrange", "FIAT/discontinuous_lagrange.py:DiscontinuousLagrange", "FIAT/crouzeix_raviart.py:CrouzeixRaviart", "FIAT/hermite.py:CubicHermite"]}
{"id": "C89", "title": "The Piola mapping a vector element reports carries the element of a cell to that of its affine image", "statement": "For a cell s and its image s' under an affine map F, the dofs of the vertices, edges and faces take the same values on a field on s and on its push-forward under the mapping that mapping() reports ('covariant piola' or 'contravariant piola'); entity_dofs() are the same; when the element has no interior dofs, the basis functions that tabulate() returns on s at points x push forward, in order, to those of the element on s' at F(x).", "quantifier": "Raviart-Thomas, Brezzi-Douglas-Marini and first-kind Nedelec elements of all degrees and variants, second-kind Nedelec elements on triangles (all degrees) and tetrahedra (degree 1); all non-degenerate, positively oriented triangles and tetrahedra; all orientation-preserving affine maps; all fields and points", "why_tests_cant": "tests compare a few elements on one cell; the claim ranges over all cells, maps, degrees, fields and points", "anchors": ["FIAT/raviart_thomas.py:RaviartThomas", "FIAT/raviart_thomas.py:RTDualSet", "FIAT/brezzi_douglas_marini.py:BrezziDouglasMarini", "FIAT/nedelec.py:Nedelec", "FIAT/nedelec.py:NedelecDual2D", "FIAT/nedelec.py:NedelecDual3D", "FIAT/nedelec_second_kind.py:NedelecSecondKind", "FIAT/finite_element.py:FiniteElement.mapping"]}
{"id": "C90", "title": "The double Piola mapping a matrix element reports carries the element of a cell to that of its affine image", "statement": "For a cell s and its image s' under an affine map F, Regge elements on s and s' have the same entity_dofs(), every dof takes the same value on a symmetric field of the space and on its push-forward under the mapping that mapping() reports ('double covariant piola'), and the basis functions that tabulate() returns on s at points x push forward, in order, to those on s' at F(x). For Hellan-Herrmann-Johnson elements ('double contravariant piola') the same holds for the dofs of the edges, and for the basis functions when the element has no interior dofs.", "quantifier": "all degrees; all non-degenerate triangles and (Regge) tetrahedra; all invertible affine maps; all symmetric polynomial fields and all points", "why_tests_cant": "tests compare a few elements on one cell; the claim ranges over all cells, maps, degrees, fields and points", "anchors": ["FIAT/regge.py:Regge", "FIAT/regge.py:ReggeDual", "FIAT/hellan_herrmann_johnson.py:HellanHerrmannJohnson", "FIAT/hellan_herrmann_johnson.py:HellanHerrmannJohnsonDual", "FIAT/finite_element.py:FiniteElement.mapping"]}
{"id": "C91", "title": "The mapping affine of Bernstein elements holds; that of the elements with derivative dofs does not", "statement": "mapping() of Bernstein, Morley, Argyris, Bell and discontinuous Taylor elements returns 'affine'. For Bernstein elements on a cell and on its image under an affine map F the tables of values that tabulate() returns at points and at their images are equal. For the other four the claim fails for every map F(x) = c x + b with c other than 1: the basis functions on the image are not, in order, the push-forwards of those on the cell, because the dofs that take first derivatives are multiplied by c.", "quantifier": "Bernstein: all degrees, dimensions, non-degenerate simplices, invertible affine maps, point lists; the refutations: all scalings other than by 1, all non-degenerate cells, all degrees for which the element exists (discontinuous Taylor: at least 1)", "why_tests_cant": "tests use a few cells and no test compares an element on two cells; the claim ranges over all cells and maps", "anchors": ["FIAT/bernstein.py:Bernstein", "FIAT/morley.py:Morley", "FIAT/argyris.py:Argyris", "FIAT/bell.py:Bell", "FIAT/discontinuous_taylor.py:DiscontinuousTaylor", "FIAT/finite_element.py:FiniteElement.mapping"]}
{"id": "C92", "title": "The Piola mapping that Mardal-Tai-Winther, BDFM and Arnold-Winther elements report carries their spaces", "statement": "For a triangle s and its image s' under an affine map F, a vector (matrix) field is a combination of the basis functions of the element on s exactly if its push-forward under the mapping that mapping() reports is a combination of those of the element on s': all 9 basis functions of Brezzi-Douglas-Fortin-Marini ('contravariant piola'), the first 9 of Mardal-Tai-Winther ('contravariant piola'), the first 24 of the conforming ('double contravariant piola') and the first 15 of the nonconforming Arnold-Winther element; the other basis functions of these three only serve the constraints of the space.", "quantifier": "all non-degenerate triangles (positively oriented where quadrature is used), all affine maps (with positive determinant where quadrature is used), all polynomial fields", "why_tests_cant": "tests tabulate one element on one cell; the claim ranges over all cells, maps and fields", "anchors": ["FIAT/mardal_tai_winther.py:MardalTaiWinther", "FIAT/brezzi_douglas_fortin_marini.py:BrezziDouglasFortinMarini", "FIAT/arnold_winther.py:ArnoldWinther", "FIAT/arnold_winther.py:ArnoldWintherNC", "FIAT/finite_element.py:FiniteElement.mapping", "FIAT/polynomial_set.py:PolynomialSet.tabulate"]}
{"id": "C93", "title": "Gauss-Legendre, Gauss-Lobatto-Legendre and Gauss-Radau line elements correspond under affine maps of the line", "statement": "For a line cell s and its image s' under an affine map x -> a x + b, GaussLegendre, GaussLobattoLegendre and GaussRadau of every degree built on s' have the same entity_dofs as those built on s, and their basis functions are those of s composed with the inverse map ('affine', which mapping() reports): tabulate at mapped points returns the same values, and derivatives of order r that differ by the factor a^r of the chain rule, for any number of derivatives.", "quantifier": "all degrees (at least 1 for GaussLobattoLegendre), all lines whose second vertex lies to the right of the first by more than 1e-10, all affine maps under which this holds of the image, all points that are nodes or farther than 1e-8 from the nodes, all orders", "why_tests_cant": "tests use the reference interval and a few degrees", "anchors": ["FIAT/gauss_legendre.py:GaussLegendre", "FIAT/gauss_lobatto_legendre.py:GaussLobattoLegendre", "FIAT/gauss_radau.py:GaussRadau", "FIAT/barycentric_interpolation.py:barycentric_interpolation", "FIAT/finite_element.py:FiniteElement.mapping"]}
