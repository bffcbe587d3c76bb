{
 "claims": [
  {
   "property": "C01",
   "status": "proved",
   "theorems": [
    "FIAT.mis_mem",
    "FIAT.mis_nodup",
    "FIAT.mis_length",
    "FIAT.misFuel_eq",
    "FIAT.misFuel_nonterminating",
    "FIAT.jetKeys_mem",
    "FIAT.jetKeys_nodup"
   ],
   "note": ""
  },
  {
   "property": "C02",
   "status": "proved",
   "theorems": [
    "FIAT.latticeIter_mem",
    "FIAT.latticeIter_nodup",
    "FIAT.latticeIter_length",
    "FIAT.lattice_indices_mem",
    "FIAT.lattice_indices_length"
   ],
   "note": ""
  },
  {
   "property": "C03",
   "status": "proved",
   "theorems": [
    "FIAT.make_lattice_bary",
    "FIAT.make_lattice_nodup",
    "FIAT.make_lattice_one"
   ],
   "note": ""
  },
  {
   "property": "C04",
   "status": "partial",
   "theorems": [
    "FIAT.num_members_eq_dimP",
    "FIAT.polynomial_dimension_eq_dimP",
    "FIAT.polynomial_dimension_point",
    "FIAT.polynomial_dimension_neg_partial",
    "FIAT.polynomial_dimension_neg_triangle"
   ],
   "note": "The k >= 0 part is proved. The claim for negative degree is false: polynomial_dimension(triangle, k) is not 0 for k <= -3 (polynomial_dimension_neg_triangle); polynomial_dimension_neg_partial proves what does hold."
  },
  {
   "property": "C05",
   "status": "proved",
   "theorems": [
    "FIAT.sub_entities_spec",
    "FIAT.subEntitiesOf_mem",
    "FIAT.subEntitiesOf_sorted",
    "FIAT.subEntities_get",
    "FIAT.connectivity_spec",
    "FIAT.good_triangle",
    "FIAT.good_tetrahedron",
    "FIAT.good_quadrilateral",
    "FIAT.good_hexahedron"
   ],
   "note": ""
  },
  {
   "property": "C06",
   "status": "proved",
   "theorems": [
    "FIAT.entity_closure_spec",
    "FIAT.entity_closure_nodup",
    "FIAT.entity_closure_good",
    "FIAT.tensor_good"
   ],
   "note": ""
  },
  {
   "property": "C07",
   "status": "proved",
   "theorems": [
    "FIAT.tensor_vertices",
    "FIAT.tensor_vertices_length",
    "FIAT.tensor_entity",
    "FIAT.tensor_entity_conv",
    "FIAT.tensor_vertex_mem",
    "FIAT.tensor_good"
   ],
   "note": ""
  },
  {
   "property": "C08",
   "status": "proved",
   "theorems": [
    "FIAT.unflatten_sound",
    "FIAT.unflatten_bijective",
    "FIAT.unflatten_domain",
    "FIAT.tensor_sortedItems"
   ],
   "note": ""
  },
  {
   "property": "C09",
   "status": "proved",
   "theorems": [
    "FIAT.entity_transform_bary",
    "FIAT.entity_transform_vertex",
    "FIAT.entity_transform_affine",
    "FIAT.tensor_transform"
   ],
   "note": "For entities of dimension 1..celldim-1 the general branch; dimension 0 and celldim branches return the vertex / identity."
  },
  {
   "property": "C10",
   "status": "proved",
   "theorems": [
    "FIAT.make_affine_mapping_spec",
    "FIAT.make_affine_mapping_length",
    "FIAT.ufcVerts_affineIndependent"
   ],
   "note": ""
  },
  {
   "property": "C11",
   "status": "partial",
   "theorems": [
    "FIAT.triangle_normal",
    "FIAT.tet_normal_partial",
    "FIAT.tet_normal_not_unit"
   ],
   "note": "The unit-length claim is false for UFCTetrahedron.compute_normal (its length is 2): tet_normal_partial proves orthogonality and the actual length, tet_normal_not_unit refutes the claim."
  },
  {
   "property": "C12",
   "status": "proved",
   "theorems": [
    "FIAT.contains_point_iff",
    "FIAT.contains_point_mono"
   ],
   "note": ""
  },
  {
   "property": "C13",
   "status": "proved",
   "theorems": [
    "FIAT.eval_jacobi_eq",
    "FIAT.eval_jacobi_batch_eq",
    "FIAT.eval_jacobi_real",
    "FIAT.jacobiOK_of_gt",
    "FIAT.jacobiPoly_legendre"
   ],
   "note": "Over any characteristic-0 field with the recurrence denominators nonzero (JacobiOK), which jacobiOK_of_gt shows holds for all a, b > -1."
  },
  {
   "property": "C14",
   "status": "proved",
   "theorems": [
    "FIAT.eval_jacobi_deriv_eq",
    "FIAT.eval_jacobi_deriv_batch_eq",
    "FIAT.derivative_jacobiPoly"
   ],
   "note": ""
  },
  {
   "property": "C15",
   "status": "proved",
   "theorems": [
    "FIAT.expansion_sets_hierarchical",
    "FIAT.expansion_table_spec",
    "FIAT.expansion_table_zero"
   ],
   "note": "Real arithmetic; the points may be numbers, arrays or symbols (any commutative algebra over the reals)."
  },
  {
   "property": "C16",
   "status": "partial",
   "theorems": [
    "FIAT.expansion_sets_orthonormal_partial",
    "FIAT.expansion_degree_zero_not_orthonormal",
    "FIAT.expansion_table_spec"
   ],
   "note": "True on the line in every degree and on the triangle and tetrahedron in every degree >= 1; false in degree 0 there (refuted): the code returns the constant 1 before normalising."
  },
  {
   "property": "C17",
   "status": "proved",
   "theorems": [
    "FIAT.on_polynomial_set_spec",
    "FIAT.tabulate_spec",
    "FIAT.on_dmats_spec",
    "FIAT.form_matrix_product_spec",
    "FIAT.exp_base_spec",
    "FIAT.exp_dv_spec",
    "FIAT.symbolic_derivatives_spec",
    "FIAT.line_derivatives_spec",
    "FIAT.line_derivatives_reversed",
    "FIAT.iterDeriv_zero",
    "FIAT.iterDeriv_succ",
    "FIAT.on_exp_tab_spec",
    "FIAT.dmats_points_unisolvent"
   ],
   "note": "End to end from the modelled expansion sets, in dimensions 1 to 3; generic in the expansion set otherwise. On intervals the vertices must be increasing, as on all shipped cells: on a reversed interval LineExpansionSet.tabulate_derivatives has the wrong sign (line_derivatives_reversed)."
  },
  {
   "property": "C18",
   "status": "proved",
   "theorems": [
    "FIAT.ciarlet_nodal",
    "FIAT.ciarlet_singular",
    "FIAT.ciarlet_basis_independent",
    "FIAT.nodal_unique",
    "FIAT.lagrange_ciarlet",
    "FIAT.lagrange_element_spec"
   ],
   "note": ""
  },
  {
   "property": "C19",
   "status": "proved",
   "theorems": [
    "FIAT.to_riesz_entry",
    "FIAT.to_riesz_contract",
    "FIAT.dual_to_riesz_entry",
    "FIAT.dual_to_riesz_order_zero",
    "FIAT.on_exp_tab_spec"
   ],
   "note": "Functional.to_riesz without restriction; DualSet.to_riesz agrees with it unless all derivative entries of all nodes have order zero, in which case it drops them (dual_to_riesz_order_zero)."
  },
  {
   "property": "C20",
   "status": "proved",
   "theorems": [
    "FIAT.lagrange_num_nodes",
    "FIAT.lagrange_nodes_perm",
    "FIAT.lagrange_unisolvent",
    "FIAT.lagrange_element_spec",
    "FIAT.dmats_points_unisolvent",
    "FIAT.lattice_vanish",
    "FIAT.proper_ufcInterval",
    "FIAT.proper_defaultLine",
    "FIAT.proper_ufcTriangle",
    "FIAT.proper_defaultTriangle",
    "FIAT.proper_intrepidTriangle",
    "FIAT.proper_ufcTetrahedron",
    "FIAT.proper_defaultTetrahedron",
    "FIAT.proper_intrepidTetrahedron"
   ],
   "note": "Any dimension >= 1, any nondegenerate simplex over any ordered field."
  },
  {
   "property": "C21",
   "status": "proved",
   "theorems": [
    "FIAT.lagrange_dofs_partition",
    "FIAT.lagrange_node_interior",
    "FIAT.lagrange_c0",
    "FIAT.number_entities_spec",
    "FIAT.make_points_mem",
    "FIAT.make_points_nodup"
   ],
   "note": ""
  },
  {
   "property": "C22",
   "status": "proved",
   "theorems": [
    "FIAT.discontinuous_all_on_cell",
    "FIAT.p0_all_on_cell",
    "FIAT.quad_element_all_on_cell",
    "FIAT.disc_lagrange_nodes",
    "FIAT.emptyIds_at"
   ],
   "note": ""
  },
  {
   "property": "C23",
   "status": "proved",
   "theorems": [
    "FIAT.rt_space_spec",
    "FIAT.rt_dual_spec",
    "FIAT.raviart_thomas_spec",
    "FIAT.ufc_triangle_normals",
    "FIAT.ufc_tetrahedron_normals",
    "FIAT.rt_svd_example",
    "FIAT.ned_space_spec",
    "FIAT.ned_dual_spec",
    "FIAT.nedelec_spec",
    "FIAT.ned_svd_example",
    "FIAT.vec_space_spec",
    "FIAT.bdm_dual_spec",
    "FIAT.bdm_spec",
    "FIAT.bdm_degree_zero",
    "FIAT.n2_dual2_spec",
    "FIAT.n2_dual3_spec",
    "FIAT.nedelec2_triangle_spec",
    "FIAT.nedelec2_tetrahedron_spec",
    "FIAT.nedelec2_not_ufc"
   ],
   "note": "RaviartThomas, BDM and Nedelec of both kinds on triangles and tetrahedra, every degree, every variant string accepted: number of dofs, partition, the space, nodal basis, facet (edge/face) dofs determine the normal (tangential) trace, under the SVD contract (shown satisfiable by examples).  Second-kind Nedelec on tetrahedra of degree >= 2 is proved for the UFC tetrahedron only, since the code asserts that cell (nedelec2_not_ufc). The moments of the integral variants are modelled for UFCSimplex cells (any vertices); on the other simplex classes get_entity_transform collapses an edge or face to one vertex, see C69."
  },
  {
   "property": "C24",
   "status": "proved",
   "theorems": [
    "FIAT.concatenate_entity_dofs_spec",
    "FIAT.merge_entity_ids_spec",
    "FIAT.mixed_tabulate_block",
    "FIAT.enriched_tabulate_block",
    "FIAT.merge_coeffs_block"
   ],
   "note": ""
  },
  {
   "property": "C25",
   "status": "proved",
   "theorems": [
    "FIAT.restrict_accepts_iff",
    "FIAT.restrict_spec",
    "FIAT.restricted_basis",
    "FIAT.restricted_element_nodal",
    "FIAT.get_indices_int",
    "FIAT.get_indices_too_high",
    "FIAT.get_indices_product",
    "FIAT.get_indices_interior",
    "FIAT.get_indices_invalid"
   ],
   "note": "On cells that are products of products (nested tuples as dimensions) _get_indices looks up keys (a, b) that do not exist and selects nothing; get_indices_product is for products of two simplices or flattened cells."
  },
  {
   "property": "C26",
   "status": "proved",
   "theorems": [
    "FIAT.tensor_dofs_at",
    "FIAT.tensor_dofs_partition",
    "FIAT.tensor_dof_entity",
    "FIAT.tensor_same_entities",
    "FIAT.tensor_ids_wf",
    "FIAT.flattened_dofs",
    "FIAT.tensor_tabulate_arrays",
    "FIAT.tensor_array_scalar",
    "FIAT.tensor_array_vector_scalar",
    "FIAT.tensor_array_scalar_vector",
    "FIAT.tensor_array_three_components",
    "FIAT.tensor_tabulate_spec",
    "FIAT.iterDeriv_prodPoly",
    "FIAT.tensor_node_spec",
    "FIAT.tensor_nodes_get",
    "FIAT.tensor_nodal"
   ],
   "note": "Vector-valued factors: the code hard-codes two components; for three components the table has a wrong number of rows (tensor_array_three_components)."
  },
  {
   "property": "C27",
   "status": "proved",
   "theorems": [
    "FIAT.qrule_mk_iff",
    "FIAT.qrule_rejects",
    "FIAT.integrate_linear",
    "FIAT.tensor_quadrature_integrate",
    "FIAT.tensor_quadrature_two",
    "FIAT.mapped_rule_spec"
   ],
   "note": "Construction, linearity, tensor products of any number of rules, affine images."
  },
  {
   "property": "C28",
   "status": "proved",
   "theorems": [
    "FIAT.gauss_jacobi_exact",
    "FIAT.gauss_jacobi_weights_pos",
    "FIAT.gauss_nodes_exist",
    "FIAT.gauss_nodes_interior",
    "FIAT.gauss_nodes_perm"
   ],
   "note": "The Newton iteration that finds the roots is not modelled: the theorem is about the exact roots, which gauss_nodes_exist shows to exist; real arithmetic."
  },
  {
   "property": "C29",
   "status": "proved",
   "theorems": [
    "FIAT.gauss_line_exact",
    "FIAT.collapsed_triangle_exact",
    "FIAT.collapsed_tetrahedron_exact",
    "FIAT.collapsed_triangle_negative"
   ],
   "note": "Exact against the Lebesgue integral over the convex hull of the vertices, for every m and every positively oriented simplex; the nodes are the exact roots of the Jacobi polynomials (which exist, C28). Negative orientation gives minus the integral."
  },
  {
   "property": "C30",
   "status": "proved",
   "theorems": [
    "FIAT.create_quadrature_canonical",
    "FIAT.create_quadrature_point",
    "FIAT.create_quadrature_tensor",
    "FIAT.create_quadrature_quadrilateral",
    "FIAT.create_quadrature_hexahedron",
    "FIAT.create_quadrature_negative",
    "FIAT.create_quadrature_unknown",
    "FIAT.create_quadrature_bad_tuple",
    "FIAT.create_quadrature_broadcast",
    "FIAT.make_quadrature_simplex",
    "FIAT.make_quadrature_rejects",
    "FIAT.nodesOK_exists"
   ],
   "note": "Positively oriented simplices; the Gauss nodes are the exact roots. On products the statement is compositional (integral of a product of functions of the factors)."
  },
  {
   "property": "C31",
   "status": "partial",
   "theorems": [
    "FIAT.radau_exact_partial",
    "FIAT.radau_line_partial",
    "FIAT.radau_points",
    "FIAT.radau_not_exact",
    "FIAT.radau_nodes_exist",
    "FIAT.radau_nodes_perm",
    "FIAT.radau_line_rejects",
    "FIAT.gauss_legendre_line"
   ],
   "note": "The documented degree 2m-1 is refuted for every m (radau_not_exact); proved exact for degree 2m-2, on the reference line and on every positively oriented line cell, for both values of right. The free nodes are fixed points of the sweep of the code (they exist and are unique)."
  },
  {
   "property": "C32",
   "status": "proved",
   "theorems": [
    "FIAT.barycentric_spec",
    "FIAT.barycentric_snaps"
   ],
   "note": "Real arithmetic: values and all derivatives of the Lagrange basis for targets farther than the isclose tolerance (1e-8) from every node or equal to one; within the tolerance the code snaps to the node (characterised)."
  },
  {
   "property": "C33",
   "status": "partial",
   "theorems": [
    "FIAT.bernstein_tabulate_partial",
    "FIAT.bernstein_lookup",
    "FIAT.bernstein_top_derivative_wrong",
    "FIAT.bernstein_sum_one",
    "FIAT.bernstein_vanishes",
    "FIAT.bernstein_dual_spec",
    "FIAT.bernstein_degree_zero",
    "FIAT.sorted_ufcInterval",
    "FIAT.sorted_ufcTriangle",
    "FIAT.sorted_ufcTetrahedron",
    "FIAT.bernstein_default_triangle"
   ],
   "note": "Values and all derivatives of every order except degree are right; derivatives of order exactly degree come out divided by degree! (characterised, and refuted for degree >= 2). Dof association proved on every simplex with increasing vertex tuples; degree 0 and DefaultTriangle from degree 2 raise KeyError (proved)."
  },
  {
   "property": "C34",
   "status": "proved",
   "theorems": [
    "FIAT.serendipity_quad_dofs",
    "FIAT.serendipity_hex_dofs",
    "FIAT.serendipity_degree_zero",
    "FIAT.serendipity_quad_vanish",
    "FIAT.serendipity_hex_vanish",
    "FIAT.serendipity_quad_space",
    "FIAT.serendipity_hex_space",
    "FIAT.serendipity_contains_polynomials",
    "FIAT.serendipity_hex_contains_polynomials",
    "FIAT.serendipity_quad_unisolvent",
    "FIAT.serendipity_hex_unisolvent",
    "FIAT.serendipity_unflatten",
    "FIAT.quad_flat",
    "FIAT.hex_flat",
    "FIAT.hex_flat'",
    "FIAT.quad_flat_self",
    "FIAT.hex_flat_self",
    "FIAT.serendipity_tabulate",
    "FIAT.serendipity_tabulate_history",
    "FIAT.serendipity_quad_degree",
    "FIAT.serendipity_hex_degree"
   ],
   "note": "Quadrilateral and hexahedron, every degree r >= 1; degree 0 fails its assertion (proved). Finding: on the hexahedron degree() understates the total degree of the basis functions (serendipity_hex_degree)."
  },
  {
   "property": "C35",
   "status": "proved",
   "theorems": [
    "FIAT.barycentric_coordinates_spec",
    "FIAT.barycentric_coordinates_degenerate",
    "FIAT.map_to_reference_facet_spec",
    "FIAT.map_from_reference_facet_spec",
    "FIAT.extract_unique_facet_spec",
    "FIAT.extract_unique_facet_fail",
    "FIAT.trace_dofs",
    "FIAT.trace_tabulate_facet",
    "FIAT.trace_tabulate_other",
    "FIAT.trace_tabulate_missing",
    "FIAT.trace_tabulate_points",
    "FIAT.trace_tabulate_nan",
    "FIAT.trace_tabulate_points_derivative",
    "FIAT.facet_transform_triangle",
    "FIAT.facet_transform_tetrahedron",
    "FIAT.trace_triangle_dofs",
    "FIAT.trace_tetrahedron_dofs"
   ],
   "note": "Facet geometry for any non-degenerate simplex in any dimension; numbering and tabulation for any cell (simplex or tensor product) with a parameter DG element on the facets. Finding: without an entity, a positive derivative order raises instead of returning TraceErrors (trace_tabulate_points_derivative)."
  },
  {
   "property": "C36",
   "status": "partial",
   "theorems": [
    "FIAT.hdiv_accepts",
    "FIAT.hcurl_accepts",
    "FIAT.hdiv_affine_factors",
    "FIAT.hcurl_affine_factors",
    "FIAT.hdiv_scalar_first",
    "FIAT.hdiv_scalar_second",
    "FIAT.hdiv_vector_first",
    "FIAT.hdiv_vector_second",
    "FIAT.hdiv_rotated_partial",
    "FIAT.hdiv_covariant_second_fails",
    "FIAT.hcurl_scalar_first",
    "FIAT.hcurl_scalar_second",
    "FIAT.hcurl_vector_first",
    "FIAT.hcurl_vector_second",
    "FIAT.hcurl_rotated_partial",
    "FIAT.hcurl_contravariant_second_fails",
    "FIAT.hdiv_nodes",
    "FIAT.hdiv_field"
   ],
   "note": "Acceptance and placement proved for every branch of both wrappers that the code completes; the claim is false for a covariant (Hdiv) or contravariant (Hcurl) second factor: those elements are accepted but tabulate always raises (local name Asd unassigned), proved as hdiv_covariant_second_fails / hcurl_contravariant_second_fails."
  },
  {
   "property": "C37",
   "status": "partial",
   "theorems": [
    "FIAT.match_integral_iff",
    "FIAT.variant_point",
    "FIAT.variant_integral",
    "FIAT.variant_integral_q",
    "FIAT.variant_reject_partial",
    "FIAT.variant_newline"
   ],
   "note": "The rejection clause is false as stated: 'integral\\n' is accepted, because '$' in the pattern also matches before a trailing newline (variant_newline). variant_reject_partial proves rejection of all other strings. The unicode digits accepted by \\d are not modelled."
  },
  {
   "property": "C38",
   "status": "partial",
   "theorems": [
    "FIAT.point_evaluation_apply",
    "FIAT.component_point_evaluation_apply",
    "FIAT.component_point_evaluation_rejects",
    "FIAT.point_derivative_apply",
    "FIAT.point_normal_derivative_apply",
    "FIAT.point_direction_apply",
    "FIAT.integral_moment_apply",
    "FIAT.integral_moment_normal_derivative_apply",
    "FIAT.legendre_directional_apply",
    "FIAT.legendre_bidirectional_apply",
    "FIAT.moment_of_divergence_apply",
    "FIAT.moment_of_tensor_divergence_apply",
    "FIAT.frobenius_apply",
    "FIAT.frobenius_scalar_zero",
    "FIAT.integral_moment_direction_apply",
    "FIAT.monk_apply",
    "FIAT.pointwise_inner_product_apply",
    "FIAT.face_tangent_apply_partial",
    "FIAT.face_tangent_wrong",
    "FIAT.normal_normal_apply_partial",
    "FIAT.normal_normal_wrong",
    "FIAT.second_normal_derivative_apply_partial",
    "FIAT.second_normal_derivative_wrong",
    "FIAT.integral_moment_duplicate",
    "FIAT.unitAlpha_isFirst"
   ],
   "note": "Proved for every class except three whose documentation is false of the code: PointNormalSecondDerivative, IntegralMomentOfNormalNormalEvaluation and (literally read) IntegralMomentOfFaceTangentEvaluation are refuted by witnesses and what they do compute is proved. TensorBidirectionalMomentInnerProductEvaluation always raises TypeError and is not modelled."
  },
  {
   "property": "C39",
   "status": "proved",
   "theorems": [
    "FIAT.support_cache_transparent",
    "FIAT.support_cache_aliased",
    "FIAT.support_integral"
   ],
   "note": "Transparent as long as callers do not mutate the returned dict: the cached object itself is returned (support_cache_aliased)."
  },
  {
   "property": "C40",
   "status": "proved",
   "theorems": [
    "FIAT.on_coeffs_spec",
    "FIAT.on_coeffs_unique",
    "FIAT.on_coeffs_scalar",
    "FIAT.on_sym_coeffs_spec",
    "FIAT.on_sym_span",
    "FIAT.indexIterator_mem",
    "FIAT.indexIterator_sorted",
    "FIAT.indexIterator_nodup",
    "FIAT.indexIterator_length"
   ],
   "note": ""
  },
  {
   "property": "C41",
   "status": "proved",
   "theorems": [
    "FIAT.pointwise_dual_spec",
    "FIAT.pointwise_dual_exact",
    "FIAT.pointwise_dual_some_iff",
    "FIAT.pointwise_dual_tol",
    "FIAT.pointwise_node_apply"
   ],
   "note": ""
  },
  {
   "property": "C42",
   "status": "proved",
   "theorems": [
    "FIAT.cell_eq_equivalence",
    "FIAT.cell_ne",
    "FIAT.cell_eq_tensor",
    "FIAT.cell_eq_atom",
    "FIAT.cell_hash",
    "FIAT.cell_eq_data"
   ],
   "note": ""
  },
  {
   "property": "C43",
   "status": "proved",
   "theorems": [
    "FIAT.ufc_cell_iff",
    "FIAT.ufc_cell_built",
    "FIAT.ufcCellFuel_stable",
    "FIAT.splitStar_join",
    "FIAT.splitStar_names"
   ],
   "note": ""
  },
  {
   "property": "C44",
   "status": "proved",
   "theorems": [
    "FIAT.default_triangle",
    "FIAT.default_tetrahedron",
    "FIAT.kmv_within",
    "FIAT.kmv_rejects",
    "FIAT.kmv_default_triangle_wrong",
    "FIAT.triangle_table_within",
    "FIAT.tetrahedron_table_within",
    "FIAT.triangle_table_none",
    "FIAT.tetrahedron_table_none",
    "FIAT.withinOn_zero_iff"
   ],
   "note": "Tables with decimals: the error is at most 2e-15 times the sum of the absolute values of the coefficients, for every polynomial of the degree; exact where the data are rational. The KMV rules are right on the UFC cells only (refutation on the default triangle)."
  },
  {
   "property": "C45",
   "status": "proved",
   "theorems": [
    "FIAT.ortho_jacobi_eq",
    "FIAT.ortho_jacobiD_eq",
    "FIAT.ortho_polyval_monic",
    "FIAT.jacobiPoly_lead_pos"
   ],
   "note": "jacobiD for NOPT=1 only; gauss/lobatto (eigenvalue solvers) not modelled."
  },
  {
   "property": "C46",
   "status": "proved",
   "theorems": [
    "FIAT.gll_line",
    "FIAT.gll_rejects",
    "FIAT.gll_reference"
   ],
   "note": "Under the contract of numpy.linalg.eigh (IsEigh, shown satisfiable by eigh_exists)."
  },
  {
   "property": "C47",
   "status": "partial",
   "theorems": [
    "FIAT.gauss_rule",
    "FIAT.gauss_jacobi_rec",
    "FIAT.gauss_jacobi_rec_real",
    "FIAT.rec_jacobi_orthogonal",
    "FIAT.lobatto_rule_partial",
    "FIAT.lobatto_gegenbauer",
    "FIAT.lobatto_sharp",
    "FIAT.lobatto_wrong"
   ],
   "note": "gauss: full statement, for every positive functional.  lobatto: proved when the alpha coefficients are constant (in particular all symmetric weights, the only use in FIAT); for other weights the claim is false of the code, which builds its linear systems from a shifted diagonal (lobatto_wrong is a concrete refutation)."
  },
  {
   "property": "C48",
   "status": "proved",
   "theorems": [
    "FIAT.gauss_lobatto_element",
    "FIAT.gauss_lobatto_degree_zero",
    "FIAT.gauss_legendre_element",
    "FIAT.gauss_radau_element",
    "FIAT.point_element_spec",
    "FIAT.leggauss_exists"
   ],
   "note": "tabulate is correct at points that are nodes or farther than the snapping tolerance 1e-8 from all nodes (barycentric_snaps shows that the tolerance is observable).  GaussLobattoLegendre of degree 0 raises (proved)."
  },
  {
   "property": "C49",
   "status": "proved",
   "theorems": [
    "FIAT.cubic_hermite_spec",
    "FIAT.cubic_hermite_degree",
    "FIAT.cubic_hermite_conforming"
   ],
   "note": "Interval, triangle, tetrahedron with arbitrary non-degenerate vertices."
  },
  {
   "property": "C50",
   "status": "proved",
   "theorems": [
    "FIAT.morley_spec",
    "FIAT.morley_gradient"
   ],
   "note": "Any triangle; compute_normal enters by the contract FacetNormals, proved for the UFC triangle (ufc_triangle_unit_normals)."
  },
  {
   "property": "C51",
   "status": "proved",
   "theorems": [
    "FIAT.argyris_spec",
    "FIAT.argyris_low_degree",
    "FIAT.argyris_conforming",
    "FIAT.quintic_argyris_eq",
    "FIAT.ufc_triangle_unit_normals"
   ],
   "note": "Every degree; compute_normal enters by the contract FacetNormals, proved for the UFC triangle."
  },
  {
   "property": "C52",
   "status": "proved",
   "theorems": [
    "FIAT.bell_spec",
    "FIAT.bell_constraint",
    "FIAT.bell_edge"
   ],
   "note": "compute_normal enters by the contract FacetNormals, the Gauss nodes by NodesOK (both shown satisfiable); the weights are modelled as numbers although the code passes arrays of length one. The moments of the integral variants are modelled for UFCSimplex cells (any vertices); on the other simplex classes get_entity_transform collapses an edge or face to one vertex, see C69."
  },
  {
   "property": "C53",
   "status": "proved",
   "theorems": [
    "FIAT.crouzeix_raviart_spec",
    "FIAT.crouzeix_raviart_degree",
    "FIAT.crouzeix_raviart_mean"
   ],
   "note": "Interval, triangle, tetrahedron with arbitrary non-degenerate vertices."
  },
  {
   "property": "C54",
   "status": "proved",
   "theorems": [
    "FIAT.discontinuous_taylor_spec",
    "FIAT.discontinuous_taylor_zero",
    "FIAT.taylor_const"
   ],
   "note": "Interval, triangle, tetrahedron; positively oriented vertices, as make_quadrature scales by the signed determinant."
  },
  {
   "property": "C55",
   "status": "proved",
   "theorems": [
    "FIAT.regge_spec",
    "FIAT.regge_dimension"
   ],
   "note": "Triangles and tetrahedra with arbitrary non-degenerate vertices, every degree."
  },
  {
   "property": "C56",
   "status": "proved",
   "theorems": [
    "FIAT.hhj_spec"
   ],
   "note": "compute_scaled_normal enters by the contract FacetNormals, proved for the UFC triangle in the example."
  },
  {
   "property": "C57",
   "status": "proved",
   "theorems": [
    "FIAT.codim_bubble_spec",
    "FIAT.codim_bubble_rejects",
    "FIAT.bubble_space_boundary",
    "FIAT.bubble_space_conforming",
    "FIAT.bubble_space_iff"
   ],
   "note": "Interval with increasing vertices, triangle, tetrahedron; every degree and codimension."
  },
  {
   "property": "C58",
   "status": "proved",
   "theorems": [
    "FIAT.discontinuous_raviart_thomas_spec"
   ],
   "note": "Same contracts as C23 (facet normals, Gauss nodes, SVD)."
  },
  {
   "property": "C59",
   "status": "proved",
   "theorems": [
    "FIAT.brezzi_douglas_fortin_marini_spec",
    "FIAT.bdfm_space_spec",
    "FIAT.brezzi_douglas_fortin_marini_rejects"
   ],
   "note": "Same contracts as C23 (facet normals, SVD of the row matrix, shown to hold on the UFC triangle)."
  },
  {
   "property": "C60",
   "status": "proved",
   "theorems": [
    "FIAT.mardal_tai_winther_spec",
    "FIAT.mardal_tai_winther_rejects"
   ],
   "note": "The results of numpy.polynomial.legendre.leggauss(7) enter as a parameter with its contract (exact to degree 13); legval is written as the Legendre polynomial; the edge normals are a parameter with the contract FacetNormals. The edge moments are modelled for UFCSimplex cells (see C69)."
  },
  {
   "property": "C61",
   "status": "proved",
   "theorems": [
    "FIAT.arnold_winther_spec",
    "FIAT.arnold_winther_rejects"
   ],
   "note": "leggauss(7), compute_normal and the singular values in volume_of_subcomplex enter as parameters (contracts IsLeggauss, FacetNormals; any singular values). The edge moments are modelled for UFCSimplex cells (see C69)."
  },
  {
   "property": "C62",
   "status": "proved",
   "theorems": [
    "FIAT.arnold_winther_nc_spec",
    "FIAT.arnold_winther_nc_rejects"
   ],
   "note": "leggauss(7), compute_normal and the singular values in volume_of_subcomplex enter as parameters (contracts IsLeggauss, FacetNormals; any singular values). The edge moments are modelled for UFCSimplex cells (see C69)."
  },
  {
   "property": "C63",
   "status": "proved",
   "theorems": [
    "FIAT.dpc_interval",
    "FIAT.dpc_line",
    "FIAT.dpc_quadrilateral",
    "FIAT.dpc_hexahedron",
    "FIAT.dpc_zero",
    "FIAT.dpc_element_spec"
   ],
   "note": "dpc_hexahedron also refutes that the nodes lie in the cell: the corner v[2] + average is (1/2, 3/2, 0)."
  },
  {
   "property": "C64",
   "status": "proved",
   "theorems": [
    "FIAT.nodal_enriched_iff",
    "FIAT.nodal_enriched_spec",
    "FIAT.nodal_enriched_rejects",
    "FIAT.lagrange_bubble_iff",
    "FIAT.primal_independence_insufficient",
    "FIAT.lagrange_part",
    "FIAT.bubble_part",
    "FIAT.restrict_part"
   ],
   "note": "The property states the exact condition; the documentation's equivalence is refuted by primal_independence_insufficient. Sanity checks on equal cells, mappings, value shapes hold by construction of the model."
  },
  {
   "property": "C65",
   "status": "proved",
   "theorems": [
    "FIAT.kmv_spec",
    "FIAT.kmv_conforming",
    "FIAT.kmv_lumped",
    "FIAT.kmv_element_rejects",
    "FIAT.kmv_space_triangle",
    "FIAT.kmv_space_tetrahedron"
   ],
   "note": "The space is determined on every nondegenerate triangle and tetrahedron (kmv_space_triangle, kmv_space_tetrahedron); unisolvence on the UFC cells, where the tables are used. It is proved from an approximate inverse of the rational Vandermonde matrix checked by the kernel (diagonal dominance), which is exact for the rational numbers written in the source."
  },
  {
   "property": "C66",
   "status": "proved",
   "theorems": [
    "FIAT.compute_normal_spec",
    "FIAT.compute_reference_normal_spec",
    "FIAT.volume_spec",
    "FIAT.volume_measure",
    "FIAT.compute_scaled_normal_spec",
    "FIAT.scaled_normals_sum",
    "FIAT.compute_normal_contract",
    "FIAT.compute_scaled_normal_contract",
    "FIAT.compute_normal_embedded",
    "FIAT.compute_normal_tiny",
    "FIAT.compute_normal_not_all",
    "FIAT.morley_with_normals"
   ],
   "note": "Contract of numpy.linalg.svd and qr: LinAlgOK (Lemmas/LinAlgSpec.lean), met by linAlgOK_exists. compute_normal_contract and compute_scaled_normal_contract discharge, for every cell that is not tiny, the hypothesis FacetNormals of the element theorems (C23, C50-C62)."
  },
  {
   "property": "C67",
   "status": "proved",
   "theorems": [
    "FIAT.tensor_reference_normal_spec",
    "FIAT.flat_reference_normal_spec",
    "FIAT.tensor_reference_normal_reject",
    "FIAT.ufc_quad_hex_reference_normals",
    "FIAT.geomOK_simplex",
    "FIAT.geomOK_flat",
    "FIAT.tensor_volume_spec",
    "FIAT.tensor_volume_simplices",
    "FIAT.prism_normal_inward"
   ],
   "note": "GeomOK is what the factors have to satisfy; geomOK_simplex (with C66), geomOK_interval, geomOK_triangle and geomOK_flat provide it for the shipped cells."
  },
  {
   "property": "C68",
   "status": "proved",
   "theorems": [
    "FIAT.lagrange_conforming",
    "FIAT.raviart_thomas_conforming",
    "FIAT.bdm_conforming",
    "FIAT.shared_normals",
    "FIAT.ufc_scaled_normals_match",
    "FIAT.nedelec_conforming",
    "FIAT.nedelec2_triangle_conforming",
    "FIAT.nedelec2_tetrahedron_conforming",
    "FIAT.raviart_thomas_square"
   ],
   "note": "Cells and maps: Props/MeshSpec.lean. Second-kind elements on tetrahedra of degree 2 and more only on UFCTetrahedron, as in the code. Meshes that meet the hypotheses: Props/ConformExample.lean. The moments of the integral variants are modelled for UFCSimplex cells (any vertices); on the other simplex classes get_entity_transform collapses an edge or face to one vertex, see C69."
  },
  {
   "property": "C69",
   "status": "proved",
   "theorems": [
    "FIAT.entity_transform_ufc",
    "FIAT.entity_transform_cell",
    "FIAT.entity_transform_other",
    "FIAT.interpolation_cell",
    "FIAT.interpolation_entity",
    "FIAT.lagrange_nodal",
    "FIAT.lagrange_partition_of_unity",
    "FIAT.lagrange_tables_agree",
    "FIAT.raviart_thomas_interpolation",
    "FIAT.nedelec_interpolation",
    "FIAT.interpolation_entity_other",
    "FIAT.opposite_flux",
    "FIAT.facet_moments_other",
    "FIAT.facet_moments_other_wrong"
   ],
   "note": "The failure on simplices that are not UFC cells is part of the statement and proved."
  },
  {
   "property": "C70",
   "status": "proved",
   "theorems": [
    "FIAT.jacobi_log_derivative",
    "FIAT.deflationSum_eq",
    "FIAT.newton_step_eq",
    "FIAT.newton_step_root",
    "FIAT.newton_step_near",
    "FIAT.newton_loop_last",
    "FIAT.gauss_points_near_roots",
    "FIAT.gauss_points_separated",
    "FIAT.newton_monotone_step",
    "FIAT.newton_monotone",
    "FIAT.gauss_legendre_first_point",
    "FIAT.gauss_points_head",
    "FIAT.gauss_points_two",
    "FIAT.legendre_root_ge"
   ],
   "note": "Exact arithmetic. Not claimed: that the guesses for the second and later points always lead to convergence within 100 passes (a posteriori statement only)."
  },
  {
   "property": "C71",
   "status": "proved",
   "theorems": [
    "FIAT.regge_conforming_core",
    "FIAT.regge_conforming",
    "FIAT.hhj_conforming_core",
    "FIAT.hhj_conforming",
    "FIAT.hhj_conforming_ufc",
    "FIAT.doubleCovariant_quad",
    "FIAT.doubleContravariant_quad"
   ],
   "note": ""
  },
  {
   "property": "C72",
   "status": "proved",
   "theorems": [
    "FIAT.de_rham_tetrahedron",
    "FIAT.de_rham_tetrahedron_second_kind",
    "FIAT.de_rham_triangle_curl",
    "FIAT.de_rham_triangle_curl_second_kind",
    "FIAT.de_rham_triangle_div",
    "FIAT.de_rham_triangle_div_second_kind",
    "FIAT.discontinuous_lagrange_spec"
   ],
   "note": ""
  },
  {
   "property": "C73",
   "status": "partial",
   "theorems": [
    "FIAT.rec_jacobi01_spec",
    "FIAT.rec_jacobi01_one",
    "FIAT.orthopoly_rejects",
    "FIAT.gauss_jacobi01_rec",
    "FIAT.mm_log_spec_partial",
    "FIAT.mm_log_nan",
    "FIAT.mod_chebyshev_spec",
    "FIAT.rec_jaclog_spec_partial",
    "FIAT.rec_jaclog_nan",
    "FIAT.gauss_jaclog_partial"
   ],
   "note": "The full statement is false of the code: rec_jacobi01 with N = 1 raises (rec_jacobi01_one), and mm_log / rec_jaclog return nan when the exponent is an integer-valued float below the number of moments (mm_log_nan, rec_jaclog_nan). Proved for all other exponents: every int > -1, every float > -1 that is not such an integer."
  },
  {
   "property": "C74",
   "status": "proved",
   "theorems": [
    "FIAT.rt_interpolation_commutes",
    "FIAT.bdm_interpolation_commutes",
    "FIAT.nedelec_triangle_commutes",
    "FIAT.nedelec_tetrahedron_commutes",
    "FIAT.lagrange_nedelec_commutes"
   ],
   "note": "Stated on the tables of the elements (feValue: the linear combination of tabulated values and derivatives) with coefficients the values of the nodes on the field. Fields are polynomials of any degree the quadrature degree chosen by the variant integrates exactly."
  },
  {
   "property": "C75",
   "status": "proved",
   "theorems": [
    "FIAT.lagrange_trace_dofs",
    "FIAT.lagrange_c0_element",
    "FIAT.tensor_trace_dofs",
    "FIAT.product_c0",
    "FIAT.tensorNodes_points",
    "FIAT.flatten_c0",
    "FIAT.quadrilateral_element",
    "FIAT.hexahedron_element",
    "FIAT.quadrilateral_continuous",
    "FIAT.hexahedron_continuous"
   ],
   "note": "IsC0Element collects the properties of one element; product_c0 and flatten_c0 carry it over to products and flattened products; ContinuousAcross is the statement about two cells of a mesh. Orientation: both cells must list the mesh vertices of the shared entity in the same order, FIAT does not permute dofs. The mesh statement is for equal degrees in all variables."
  },
  {
   "property": "C76",
   "status": "proved",
   "theorems": [
    "FIAT.rtcf_element",
    "FIAT.rtce_element",
    "FIAT.rtcf_conforming",
    "FIAT.rtce_conforming"
   ],
   "note": "IsEdgeElement: the B-trace along an edge is a combination of the l+1 nodal functions of B with the dofs of the edge as coefficients, with the same orientation on all edges (the sign convention of hdivcurl.py:64-90 matters here); EdgeConforming is the statement about two cells. The nodes of the wrapped elements (mostly 'Undefined' functionals) are modelled but nothing is claimed about them. EnrichedElement compares topologies where Python compares classes."
  },
  {
   "property": "C77",
   "status": "proved",
   "theorems": [
    "FIAT.quadrature_element_tabulate",
    "FIAT.quadrature_element_interpolates",
    "FIAT.quadrature_element_vertex"
   ],
   "note": "On a vertex (dimension zero) tabulate always raises ValueError, because the check takes the maximum of an empty array (quadrature_element_vertex). Points of the right dimension only: numpy broadcasting of lower-dimensional input is not modelled."
  },
  {
   "property": "C78",
   "status": "partial",
   "theorems": [
    "FIAT.project_result",
    "FIAT.project_partial",
    "FIAT.project_wrong"
   ],
   "note": "The claim is false of the code: tabulate returns a dictionary and project loops over its keys, which are zero multi-indices. project_result: the result is [0] whenever the call does not raise; project_partial characterises the cases where that is right; project_wrong is a concrete refutation."
  },
  {
   "property": "C79",
   "status": "proved",
   "theorems": [
    "FIAT.crouzeix_raviart_weakly_conforming",
    "FIAT.affine_integral"
   ],
   "note": "Any dimension D >= 1 for the dual set; the element exists for D = 1, 2, 3 (C53). Both sides of the facet are parametrized by the reference facet, and the theorem says that the two parametrizations give the same point of the mesh."
  },
  {
   "property": "C80",
   "status": "proved",
   "theorems": [
    "FIAT.enriched_init_spec",
    "FIAT.enriched_init_rejects",
    "FIAT.mixed_init_spec"
   ],
   "note": "Besides the conditions of the statement the entity dofs of every element must refer to entities of the cell (a KeyError otherwise), and degree() must exist (an AttributeError for MixedElement)."
  },
  {
   "property": "C81",
   "status": "proved",
   "theorems": [
    "FIAT.bernstein_conforming",
    "FIAT.bernsteinFn_tabulate",
    "FIAT.bernstein_entity_exponents",
    "FIAT.refBern_independent",
    "FIAT.mis_lexGT"
   ],
   "note": "Degree 0 raises KeyError (bernstein_degree_zero, C33)."
  },
  {
   "property": "C82",
   "status": "proved",
   "theorems": [
    "FIAT.trace_single_valued",
    "FIAT.traceValue_iff"
   ],
   "note": "The facet element is any element with point evaluation dofs whose tabulate returns its nodal basis (IsFacetElement); the code uses DiscontinuousLagrange."
  },
  {
   "property": "C83",
   "status": "proved",
   "theorems": [
    "FIAT.serendipity_quad_continuous"
   ],
   "note": "ContinuousAcross is the specification of C75 (Props/QMesh.lean). Degree 0 is refused (serendipity_degree_zero)."
  },
  {
   "property": "C84",
   "status": "partial",
   "theorems": [
    "FIAT.serendipity_hex_continuous_low",
    "FIAT.serendipity_hex_continuous_partial",
    "FIAT.serendipity_hex_refuted"
   ],
   "note": "Proved for degrees up to 4, and for all degrees for vertices, edges and the faces of which both or none is perpendicular to the second direction. False of the code for the other pairs of faces for every degree >= 5 (serendipity_hex_refuted): f_lambda_0 numbers the functions of faces 2 and 3 with the third direction first, those of the other faces with the lower direction first."
  },
  {
   "property": "C85",
   "status": "proved",
   "theorems": [
    "FIAT.bdfm_conforming",
    "FIAT.bdfm_ufc_conforming"
   ],
   "note": "Specification: Props/MeshSpec.lean (as C68) and IsBDFM (C59). The second theorem takes the normals of compute_scaled_normal."
  },
  {
   "property": "C86",
   "status": "proved",
   "theorems": [
    "FIAT.kmv_triangle_conforming"
   ],
   "note": "Specification: Props/MeshSpec.lean (as C68) and KMVSpaceOf (C65)."
  },
  {
   "property": "C87",
   "status": "partial",
   "theorems": [
    "FIAT.kmv_mesh_conforming_partial",
    "FIAT.kmv_tetrahedron_refuted"
   ],
   "note": "Proved for vertices, edges and the facets which neither cell numbers 0, and for degree 1. False of the code for facet 0 (kmv_tetrahedron_refuted, degree 2, every such mesh): the coordinates of its dof are decimals that do not add up to 1, so that the dof lies beside the facet."
  },
  {
   "property": "C88",
   "status": "partial",
   "theorems": [
    "FIAT.lagrange_maps_partial",
    "FIAT.discontinuous_lagrange_maps_partial",
    "FIAT.crouzeix_raviart_maps_partial",
    "FIAT.cubic_hermite_maps_refuted"
   ],
   "note": "Specification: MapsScalar in Props/Pushforward.lean (values and gradients). Proved for Lagrange, discontinuous Lagrange and Crouzeix-Raviart elements. False of the code for the cubic Hermite element (cubic_hermite_maps_refuted: the unit interval and any interval of length 2), whose derivative nodes do not correspond under the mapping it reports."
  },
  {
   "property": "C89",
   "status": "partial",
   "theorems": [
    "FIAT.nedelec_maps_partial",
    "FIAT.nedelec2_triangle_maps_partial",
    "FIAT.nedelec2_tetrahedron_maps_partial",
    "FIAT.raviart_thomas_maps_partial",
    "FIAT.bdm_maps_partial",
    "FIAT.scaled_normals_carried",
    "FIAT.raviart_thomas_interior_refuted"
   ],
   "note": "Specifications: Pushes in Lemmas/PiolaTransport.lean (the two Piola transforms), MapsVector and DofsCarried in Props/PushforwardVector.lean. Proved for every degree for the dofs of vertices, edges and faces, and for the basis functions when there are no interior dofs (shown to be the case in the lowest degree). With interior dofs the basis functions do not correspond: raviart_thomas_interior_refuted exhibits an interior dof of the point variant that is not carried, for every degree at least 1 of the polynomials and every map whose contravariant Piola transform is not the identity."
  },
  {
   "property": "C90",
   "status": "partial",
   "theorems": [
    "FIAT.regge_maps",
    "FIAT.hhj_maps_partial",
    "FIAT.hhj_interior_refuted"
   ],
   "note": "Specifications: PushesMatrix in Lemmas/MatrixTransport.lean (the two double Piola transforms), MapsMatrix and MatrixDofsCarried in Props/PushforwardMatrix.lean. Regge: proved in full, for every degree, dimension 2 and 3. Hellan-Herrmann-Johnson: proved for the edge dofs of every degree and for the basis functions in degree 0; in every degree at least 1 hhj_interior_refuted exhibits an interior dof (the value of an entry of the matrix) that the mapping does not carry, for every map with det(A) A^-1 other than 1 and -1."
  },
  {
   "property": "C91",
   "status": "proved",
   "theorems": [
    "FIAT.bernstein_maps",
    "FIAT.argyris_maps_refuted",
    "FIAT.bell_maps_refuted",
    "FIAT.morley_maps_refuted",
    "FIAT.discontinuous_taylor_maps_refuted"
   ],
   "note": "Specification: MapsScalar in Props/Pushforward.lean. The statement is the true one: Bernstein elements are carried (values; order 0 tables), and the affine mapping that the other four report is refuted for every scaling other than by 1. Morley: the unit normals of the two cells are taken equal, which is so for a positive scaling."
  },
  {
   "property": "C92",
   "status": "proved",
   "theorems": [
    "FIAT.mardal_tai_winther_carried",
    "FIAT.bdfm_carried",
    "FIAT.arnold_winther_carried",
    "FIAT.arnold_winther_nc_carried"
   ],
   "note": "Specifications: InSpan, SpanCarried and MatrixSpanCarried in Props/PushforwardSpaces.lean, stated with the values that tabulate returns; Pushes in Lemmas/PiolaTransport.lean and PushesMatrix in Lemmas/MatrixTransport.lean. BDFM: the singular value decomposition returned by the library has the gap condition of C59 on both cells."
  },
  {
   "property": "C93",
   "status": "proved",
   "theorems": [
    "FIAT.gauss_legendre_maps",
    "FIAT.gauss_lobatto_maps",
    "FIAT.gauss_radau_maps"
   ],
   "note": "Specifications: LineTablesMap in Props/PushforwardLine.lean (the tabulate that GaussLegendre and GaussLobattoLegendre override, every order) and MapsScalar in Props/Pushforward.lean (the inherited tabulate of GaussRadau, values and first derivatives; also proved of the nodal basis of the other two). leggauss is taken by its contract IsLeggauss; the free Radau nodes are fixed points of the sweep of the code."
  }
 ]
}