{
 "claims": [
  {
   "property": "C01",
   "status": "proved",
   "theorems": [
    "Verif.MpiLayout.c01_partition"
   ],
   "note": ""
  },
  {
   "property": "C02",
   "status": "proved",
   "theorems": [
    "Verif.MpiLayout.c02_error_iff"
   ],
   "note": ""
  },
  {
   "property": "C03",
   "status": "proved",
   "theorems": [
    "Verif.MpiTranspose.c03_transpose_to",
    "Verif.MpiTranspose.c03_constructor",
    "Verif.MpiTranspose.c03_order_mismatch_counterexample"
   ],
   "note": "Proved for layouts that list their distributed dimensions in tag order and share no distributed dimension; the counterexample shows that the code accepts other orders and then delivers wrong data."
  },
  {
   "property": "C04",
   "status": "proved",
   "theorems": [
    "Verif.Transpose.c04_transpose_values",
    "Verif.Transpose.c04_no_write_outside"
   ],
   "note": ""
  },
  {
   "property": "C05",
   "status": "proved",
   "theorems": [
    "Verif.Timestepper.c05_euler_linear",
    "Verif.Timestepper.c05_rk2_linear",
    "Verif.Timestepper.c05_rk3_linear",
    "Verif.Timestepper.c05_rk4_linear",
    "Verif.Timestepper.c05_euler_quadrature",
    "Verif.Timestepper.c05_rk2_quadrature",
    "Verif.Timestepper.c05_rk3_quadrature",
    "Verif.Timestepper.c05_rk4_quadrature"
   ],
   "note": ""
  },
  {
   "property": "C06",
   "status": "proved",
   "theorems": [
    "Verif.Timestepper.c06_equilibrium",
    "Verif.Timestepper.c06_linear_invariant",
    "Verif.Timestepper.c06_cn_equilibrium",
    "Verif.Timestepper.c06_cn_linear_invariant"
   ],
   "note": ""
  },
  {
   "property": "C07",
   "status": "proved",
   "theorems": [
    "Verif.Timestepper.c07_iteration_count",
    "Verif.Timestepper.c07_converged_meaning",
    "Verif.Timestepper.c07_fixed_point",
    "Verif.Timestepper.c07_residual",
    "Verif.Timestepper.c07_contraction",
    "Verif.Timestepper.c07_converges",
    "Verif.Timestepper.c07_large_step"
   ],
   "note": ""
  },
  {
   "property": "C08",
   "status": "proved",
   "theorems": [
    "Verif.Onion.c08_locate",
    "Verif.Onion.c08_constructor"
   ],
   "note": ""
  },
  {
   "property": "C09",
   "status": "proved",
   "theorems": [
    "Verif.EdgeTransform.c09_round_trip_nonperiodic",
    "Verif.EdgeTransform.c09_round_trip",
    "Verif.EdgeTransform.c09_ends",
    "Verif.EdgeTransform.c09_order",
    "Verif.EdgeTransform.c09_order_periodic",
    "Verif.EdgeTransform.c09_stays_on_edge"
   ],
   "note": ""
  },
  {
   "property": "C10",
   "status": "proved",
   "theorems": [
    "Verif.EdgeTransform.c10_uniform_exact",
    "Verif.EdgeTransform.c10_wrap",
    "Verif.EdgeTransform.c10_wrap_limit_counterexample",
    "Verif.EdgeTransform.c10_rounding_counterexample",
    "Verif.EdgeTransform.c10_binary64_right",
    "Verif.EdgeTransform.c10_binary64_error",
    "Verif.EdgeTransform.c10_binary64_wrong"
   ],
   "note": "In binary64 the returned index can be off by one (c10_binary64_wrong, 1 cell facing 93); c10_binary64_right says when it is right."
  },
  {
   "property": "C11",
   "status": "proved",
   "theorems": [
    "Verif.EdgeTransform.c11_finds_match",
    "Verif.EdgeTransform.c11_sound",
    "Verif.EdgeTransform.c11_single_point_diverges"
   ],
   "note": ""
  },
  {
   "property": "C12",
   "status": "proved",
   "theorems": [
    "Verif.Connectivity.c12_grids",
    "Verif.Connectivity.c12_interfaces",
    "Verif.Connectivity.c12_interfaces_once",
    "Verif.Connectivity.c12_flipped_ring_counterexample",
    "Verif.Connectivity.c12_patch_connections",
    "Verif.Connectivity.c12_find_connections",
    "Verif.Connectivity.c12_inner_edges",
    "Verif.Connectivity.c12_find_patch",
    "Verif.Connectivity.c12_all_patches",
    "Verif.Connectivity.c12_four_edges",
    "Verif.Connectivity.c12_complete",
    "Verif.Connectivity.c12_repeated_edge_accepted"
   ],
   "note": "The 'no repetition' part needs front-to-back interfaces; the flipped ring is a counterexample otherwise."
  },
  {
   "property": "C13",
   "status": "proved",
   "theorems": [
    "Verif.Quadrature.c13_affine_exact",
    "Verif.Quadrature.c13_is_piecewise_affine",
    "Verif.Quadrature.c13_positive_and_total"
   ],
   "note": ""
  },
  {
   "property": "C14",
   "status": "proved",
   "theorems": [
    "Verif.Quadrature.c14_piecewise_parabola",
    "Verif.Quadrature.c14_quadratic_exact",
    "Verif.Quadrature.c14_cubic_exact",
    "Verif.Quadrature.c14_rejects",
    "Verif.Quadrature.c14_small_sizes_counterexample",
    "Verif.Quadrature.c14_simpson_trapezoid_affine",
    "Verif.Quadrature.c14_simpson_trapezoid_parts"
   ],
   "note": ""
  },
  {
   "property": "C15",
   "status": "proved",
   "theorems": [
    "Verif.GaussLegendre.c15_composite",
    "Verif.GaussLegendre.c15_composite_exact",
    "Verif.GaussLegendre.c15_tables",
    "Verif.GaussLegendre.c15_points_increasing",
    "Verif.GaussLegendre.c15_nodes_are_legendre_roots"
   ],
   "note": ""
  },
  {
   "property": "C16",
   "status": "proved",
   "theorems": [
    "Verif.QuadratureND.c16_decode_bijective",
    "Verif.QuadratureND.c16_iterated",
    "Verif.QuadratureND.c16_product",
    "Verif.QuadratureND.c16_batched",
    "Verif.QuadratureND.c16_volume"
   ],
   "note": ""
  },
  {
   "property": "C17",
   "status": "proved",
   "theorems": [
    "Verif.Lagrange.c17_values_non_uniform",
    "Verif.Lagrange.c17_values_uniform",
    "Verif.Lagrange.c17_reproduction"
   ],
   "note": ""
  },
  {
   "property": "C18",
   "status": "proved",
   "theorems": [
    "Verif.Lagrange.c18_derivs_non_uniform",
    "Verif.Lagrange.c18_derivs_uniform"
   ],
   "note": "All derivative orders up to the degree; includes termination and completeness of the loop over combinations."
  },
  {
   "property": "C19",
   "status": "proved",
   "theorems": [
    "Verif.LagrangeEvaluator.c19_closest_uniform",
    "Verif.LagrangeEvaluator.c19_closest_non_uniform",
    "Verif.LagrangeEvaluator.c19_stencil_non_periodic",
    "Verif.LagrangeEvaluator.c19_stencil_periodic",
    "Verif.LagrangeEvaluator.c19_builder",
    "Verif.LagrangeEvaluator.c19_builder_small_grid_counterexample",
    "Verif.LagrangeEvaluator.c19_uniform_non_periodic",
    "Verif.LagrangeEvaluator.c19_non_uniform_non_periodic",
    "Verif.LagrangeEvaluator.c19_uniform_periodic",
    "Verif.LagrangeEvaluator.c19_non_uniform_periodic"
   ],
   "note": "Exact arithmetic. The periodic builder needs one more point than the size check of the basis requires: counterexample."
  },
  {
   "property": "C20",
   "status": "proved",
   "theorems": [
    "Verif.MatrixTools.c20_corner_solve",
    "Verif.MatrixTools.c20_solve_multiple"
   ],
   "note": "Block solves are modelled by a contract (the inner LAPACK solver returns the solution of its system)."
  },
  {
   "property": "C21",
   "status": "proved",
   "theorems": [
    "Verif.MatrixTools.c21_periodic_storage",
    "Verif.MatrixTools.c21_periodic_solve"
   ],
   "note": ""
  },
  {
   "property": "C22",
   "status": "proved",
   "theorems": [
    "Verif.MatrixTools.c22_centre_storage",
    "Verif.MatrixTools.c22_centre_solve",
    "Verif.MatrixTools.c22_overlap",
    "Verif.MatrixTools.c22_solve_multiple_overrun"
   ],
   "note": "Includes two defects: memcpy on overlapping ranges when the top block is larger than the centre, and the out-of-range access of the batched solve."
  },
  {
   "property": "C23",
   "status": "proved",
   "theorems": [
    "Verif.Tridiag.c23_solve",
    "Verif.Tridiag.c23_strictly_dominant",
    "Verif.Tridiag.c23_weakly_dominant",
    "Verif.Tridiag.c23_symmetric_check_accepts_unsymmetric",
    "Verif.Tridiag.c23_symmetric_check_rejects_symmetric"
   ],
   "note": "Exact arithmetic. The symmetric-positive-definite check is shown wrong in both directions."
  },
  {
   "property": "C24",
   "status": "proved",
   "theorems": [
    "Verif.MatrixTools.c24_dense_get_set",
    "Verif.MatrixTools.c24_dense_in_bounds",
    "Verif.MatrixTools.c24_banded_get_set",
    "Verif.MatrixTools.c24_banded_zero",
    "Verif.MatrixTools.c24_banded_layout",
    "Verif.MatrixTools.c24_pds_symmetric",
    "Verif.MatrixTools.c24_pds_get_set",
    "Verif.MatrixTools.c24_pds_zero"
   ],
   "note": ""
  },
  {
   "property": "C25",
   "status": "proved",
   "theorems": [
    "Verif.Csr.c25_first_batch",
    "Verif.Csr.c25_row_pointers",
    "Verif.Csr.c25_sorted",
    "Verif.Csr.c25_unsorted_counterexample",
    "Verif.Csr.c25_setup_sort_only_first",
    "Verif.Csr.c25_setup_sort_counterexample"
   ],
   "note": "True for the first batch and for row-sorted input; refuted (with witnesses) otherwise."
  },
  {
   "property": "C26",
   "status": "proved",
   "theorems": [
    "Verif.MatrixTools.c26_make_banded",
    "Verif.MatrixTools.c26_make_periodic",
    "Verif.MatrixTools.c26_make_block",
    "Verif.MatrixTools.c26_make_corner",
    "Verif.MatrixTools.c26_doc_pattern_dropped"
   ],
   "note": ""
  },
  {
   "property": "C27",
   "status": "proved",
   "theorems": [
    "Verif.MathTools.c27_sum",
    "Verif.MathTools.c27_sum_range",
    "Verif.MathTools.c27_ipow_nat",
    "Verif.MathTools.c27_ipow_int",
    "Verif.MathTools.c27_factorial_mod",
    "Verif.MathTools.c27_factorial",
    "Verif.MathTools.c27_factorial_overflow",
    "Verif.MathTools.c27_modulo",
    "Verif.MathTools.c27_neg_1_pow",
    "Verif.MathTools.c27_neg_1_pow_negative_odd",
    "Verif.MathTools.c27_det2",
    "Verif.MathTools.c27_det3",
    "Verif.MathTools.c27_inv2",
    "Verif.MathTools.c27_inv3"
   ],
   "note": "modulo: for 32-bit x with the quotient rounded to double. neg_1_pow is wrong for negative odd exponents."
  },
  {
   "property": "C28",
   "status": "proved",
   "theorems": [
    "Verif.Fdm.c28_exact_on_quadratics",
    "Verif.Fdm.c28_linear",
    "Verif.Fdm.c28_periodic",
    "Verif.Fdm.c28_periodic_shift",
    "Verif.Fdm.c28_boundary_front",
    "Verif.Fdm.c28_boundary_back",
    "Verif.Fdm.c28_boundary_interior",
    "Verif.Fdm.c28_boundary_constant"
   ],
   "note": "Exact arithmetic."
  },
  {
   "property": "C29",
   "status": "proved",
   "theorems": [
    "Verif.Norms.c29_norm_inf_le_iff",
    "Verif.Norms.c29_norm_inf_nonneg",
    "Verif.Norms.c29_norm_inf_bounds",
    "Verif.Norms.c29_norm_inf_attained",
    "Verif.Norms.c29_norm_inf_smul",
    "Verif.Norms.c29_norm_inf_add",
    "Verif.Norms.c29_norm_inf_schedule",
    "Verif.Norms.c29_error_norm_inf",
    "Verif.Norms.c29_norm_inf_vector",
    "Verif.Norms.c29_norm_L1",
    "Verif.Norms.c29_norm_L1_seminorm",
    "Verif.Norms.c29_norm_L1_definite",
    "Verif.Norms.c29_norm_L2",
    "Verif.Norms.c29_norm_L2_seminorm",
    "Verif.Norms.c29_error_norms"
   ],
   "note": "Exact arithmetic; for every reduction order."
  },
  {
   "property": "C30",
   "status": "proved",
   "theorems": [
    "Verif.Mappings.c30_cart_circ_cart",
    "Verif.Mappings.c30_circ_cart_circ",
    "Verif.Mappings.c30_range",
    "Verif.Mappings.c30_o_point"
   ],
   "note": "Real arithmetic."
  },
  {
   "property": "C31",
   "status": "proved",
   "theorems": [
    "Verif.Mappings.c31_circ_jacobian",
    "Verif.Mappings.c31_circ_det",
    "Verif.Mappings.c31_circ_components",
    "Verif.Mappings.c31_circ_inverse",
    "Verif.Mappings.c31_cart_to_circ_matrix",
    "Verif.Mappings.c31_cart_to_circ_det",
    "Verif.Mappings.c31_cart_to_circ_jacobian",
    "Verif.Mappings.Czarny.c31_czarny_jacobian",
    "Verif.Mappings.Czarny.c31_czarny_det",
    "Verif.Mappings.Czarny.c31_czarny_inverse"
   ],
   "note": "Real arithmetic; entries are the partial derivatives (HasDerivAt)."
  },
  {
   "property": "C32",
   "status": "proved",
   "theorems": [
    "Verif.Mappings.Czarny.c32_o_point",
    "Verif.Mappings.Czarny.c32_czarny_cart_czarny",
    "Verif.Mappings.Czarny.c32_unit_disk",
    "Verif.Mappings.Czarny.c32_cart_czarny_cart",
    "Verif.Mappings.Czarny.c32_range"
   ],
   "note": "Real arithmetic."
  },
  {
   "property": "C33",
   "status": "proved",
   "theorems": [
    "Verif.CoordTransforms.c33_cart_bary_cart",
    "Verif.CoordTransforms.c33_sum_one",
    "Verif.CoordTransforms.c33_bary_cart_bary",
    "Verif.CoordTransforms.c33_corners",
    "Verif.CoordTransforms.c33_inside",
    "Verif.CoordTransforms.c33_linear",
    "Verif.CoordTransforms.c33_linear_inverse_jacobian",
    "Verif.CoordTransforms.c33_linear_deriv"
   ],
   "note": "Exact arithmetic."
  },
  {
   "property": "C34",
   "status": "proved",
   "theorems": [
    "Verif.CoordTransforms.c34_toroidal_jacobian",
    "Verif.CoordTransforms.c34_toroidal_matrix",
    "Verif.CoordTransforms.c34_cylindrical_jacobian",
    "Verif.CoordTransforms.c34_cylindrical_matrix",
    "Verif.CoordTransforms.c34_cart_cyl_cart",
    "Verif.CoordTransforms.c34_cyl_cart_cyl",
    "Verif.CoordTransforms.c34_cart_cyl_jacobian",
    "Verif.CoordTransforms.c34_component_never_compiles",
    "Verif.CombinedMapping.c34_combined_jacobian",
    "Verif.CombinedMapping.c34_combined_jacobian_intermediate",
    "Verif.CombinedMapping.c34_combined_inverse",
    "Verif.CombinedMapping.c34_o_point_interpolation",
    "Verif.CombinedMapping.c34_o_point_circular",
    "Verif.CombinedMapping.c34_o_point_czarny",
    "Verif.CombinedMapping.c34_pseudo_cartesian_czarny",
    "Verif.CombinedMapping.c34_pseudo_cartesian_object",
    "Verif.CombinedMapping.c34_circular_identity"
   ],
   "note": "Real arithmetic. The static assertions of CartesianToCylindrical::jacobian_component contradict each other: shown."
  },
  {
   "property": "C35",
   "status": "proved",
   "theorems": [
    "Verif.VectorMapper.c35_metric_symmetric",
    "Verif.VectorMapper.c35_metric_pos_def",
    "Verif.VectorMapper.c35_metric_inverse",
    "Verif.VectorMapper.c35_conversion_compose",
    "Verif.VectorMapper.c35_conversion_meaning",
    "Verif.VectorMapper.c35_scalar_product",
    "Verif.VectorMapper.c35_copy_to_vector_space",
    "Verif.VectorMapper.c35_inverse_jacobian"
   ],
   "note": "Exact arithmetic."
  },
  {
   "property": "C36",
   "status": "proved",
   "theorems": [
    "Verif.Tensor.c36_position_to_element",
    "Verif.Tensor.c36_element_to_position",
    "Verif.Tensor.c36_injective",
    "Verif.Tensor.c36_get_set",
    "Verif.Tensor.c36_arithmetic",
    "Verif.Tensor.c36_eq",
    "Verif.Tensor.c36_assign_elements",
    "Verif.Tensor.c36_identity"
   ],
   "note": ""
  },
  {
   "property": "C37",
   "status": "proved",
   "theorems": [
    "Verif.Tensor.c37_tensor_mul",
    "Verif.Tensor.c37_accepted_iff",
    "Verif.Tensor.c37_cartesian_trace_rejected",
    "Verif.Tensor.c37_curvilinear_trace_accepted",
    "Verif.Tensor.c37_rejects"
   ],
   "note": "For every list of indexed tensors that satisfies the library's static assertions. The trace of a Cartesian tensor is rejected although it is a valid expression: shown."
  },
  {
   "property": "C38",
   "status": "proved",
   "theorems": [
    "Verif.TypeSeq.c38_defined",
    "Verif.TypeSeq.c38_duplicate",
    "Verif.TypeSeq.c38_sign",
    "Verif.TypeSeq.c38_swap",
    "Verif.TypeSeq.c38_foreign_index",
    "Verif.Tensor.c38_levi_civita"
   ],
   "note": ""
  },
  {
   "property": "C56",
   "status": "proved",
   "theorems": [
    "Verif.TypeSeq.c56_unique",
    "Verif.TypeSeq.c56_unique_first",
    "Verif.TypeSeq.c56_has_unique",
    "Verif.TypeSeq.c56_range",
    "Verif.TypeSeq.c56_range_drops_repetitions",
    "Verif.TypeSeq.c56_range_reversed",
    "Verif.TypeSeq.c56_cat",
    "Verif.TypeSeq.c56_duplicate",
    "Verif.TypeSeq.c56_find_grid",
    "Verif.TypeSeq.c56_find_all_grids",
    "Verif.TypeSeq.c56_get_first_defect",
    "Verif.TypeSeq.c56_get_first_head",
    "Verif.TypeSeq.c56_insert",
    "Verif.TypeSeq.c56_insert_before",
    "Verif.TypeSeq.c56_insert_mpi_tags",
    "Verif.TypeSeq.c56_adjacent"
   ],
   "note": "get_first_t is refuted for lists whose head does not satisfy the condition."
  },
  {
   "property": "C39",
   "status": "proved",
   "theorems": [
    "Verif.Collisions.c39_momentum_cancels",
    "Verif.Collisions.c39_energy_cancels",
    "Verif.Collisions.c39_equilibrium",
    "Verif.Collisions.c39_heat_flows_to_colder",
    "Verif.Collisions.c39_friction_dissipates",
    "Verif.Collisions.c39_reciprocity",
    "Verif.Collisions.c39_species_symmetry",
    "Verif.Collisions.c39_maxwellian_moments",
    "Verif.Collisions.c39_source_moments",
    "Verif.Collisions.c39_total_conservation",
    "Verif.Collisions.c39_discrete_moments",
    "Verif.Collisions.c39_equilibrium_step",
    "Verif.Collisions.c39_find_ion",
    "Verif.Collisions.c39_ctor"
   ],
   "note": "Real arithmetic; the moments of the source are integrals over the whole velocity line (the truncated grid and its quadrature only approximate them)."
  },
  {
   "property": "C40",
   "status": "proved",
   "theorems": [
    "Verif.Sources.c40_target_fixed",
    "Verif.Sources.c40_semigroup",
    "Verif.Sources.c40_exact_solution",
    "Verif.Sources.c40_contraction",
    "Verif.Sources.c40_converges"
   ],
   "note": "Real arithmetic."
  },
  {
   "property": "C41",
   "status": "proved",
   "theorems": [
    "Verif.Sources.c41_derivative_conserves",
    "Verif.Sources.c41_conservation_iff",
    "Verif.Sources.c41_charge_not_conserved",
    "Verif.Sources.c41_ion_density"
   ],
   "note": "The documented claim is refuted; the exact condition is proved."
  },
  {
   "property": "C42",
   "status": "proved",
   "theorems": [
    "Verif.Sources.c42_error_iff",
    "Verif.Sources.c42_bounds",
    "Verif.Sources.c42_complementary",
    "Verif.Sources.c42_symmetric",
    "Verif.Sources.c42_increasing",
    "Verif.Sources.c42_normalised",
    "Verif.Sources.c42_norm_positive",
    "Verif.Sources.c42_half_extent_degenerate",
    "Verif.Sources.c42_zero_extent"
   ],
   "note": "Real arithmetic."
  },
  {
   "property": "C43",
   "status": "proved",
   "theorems": [
    "Verif.Collisions.c43_row",
    "Verif.Collisions.c43_crank_nicolson",
    "Verif.Collisions.c43_pivots",
    "Verif.Collisions.c43_positive",
    "Verif.Collisions.c43_negative",
    "Verif.Collisions.c43_mass_balance",
    "Verif.Collisions.c43_staggered_midpoints",
    "Verif.Collisions.c43_ghosted",
    "Verif.Collisions.c43_uniform_agrees",
    "Verif.Collisions.c43_operator",
    "Verif.Collisions.c43_rates_exist"
   ],
   "note": "Real arithmetic; solvability (non-zero pivots) is a hypothesis of the step theorems, proved on uniform grids under a Peclet condition."
  },
  {
   "property": "C44",
   "status": "proved",
   "theorems": [
    "Verif.Moments.c44_xyvxvy",
    "Verif.Moments.c44_xvx_kinetic",
    "Verif.Moments.c44_xvx_iff",
    "Verif.Moments.c44_mpi_value",
    "Verif.Moments.c44_mpi_iff"
   ],
   "note": "Two defects are characterised exactly."
  },
  {
   "property": "C57",
   "status": "proved",
   "theorems": [
    "Verif.Moments.c57_overloads_agree",
    "Verif.Moments.c57_raw_moments",
    "Verif.Moments.c57_scaling",
    "Verif.Moments.c57_galilean",
    "Verif.Moments.c57_temperature_nonneg",
    "Verif.Moments.c57_velocity_bounds",
    "Verif.Moments.c57_collision_moments_agree"
   ],
   "note": ""
  },
  {
   "property": "C63",
   "status": "proved",
   "theorems": [
    "Verif.Collisions.c63_conservation",
    "Verif.Collisions.c63_unique",
    "Verif.Collisions.c63_derivative",
    "Verif.Collisions.c63_derivative_at_rest",
    "Verif.Collisions.c63_positive",
    "Verif.Collisions.c63_decreasing",
    "Verif.Collisions.c63_monotone",
    "Verif.Collisions.c63_limit",
    "Verif.Collisions.c63_at_rest",
    "Verif.Collisions.c63_operator_conserves",
    "Verif.Collisions.c63_coefficients"
   ],
   "note": "erf is defined by its integral; exp and sqrt are the real functions."
  },
  {
   "property": "C64",
   "status": "proved",
   "theorems": [
    "Verif.Sources.c64_shape_moments",
    "Verif.Sources.c64_maxwellian",
    "Verif.Sources.c64_additive",
    "Verif.Sources.c64_total_density"
   ],
   "note": ""
  },
  {
   "property": "C61",
   "status": "proved",
   "theorems": [
    "Verif.MatchSlice.c61_uniform",
    "Verif.MatchSlice.c61_single_points",
    "Verif.MatchSlice.c61_periodic_counterexample",
    "Verif.MatchSlice.c61_step",
    "Verif.MatchSlice.c61_non_uniform",
    "Verif.MatchSlice.c61_reversed_counterexample"
   ],
   "note": "Holds for non-periodic uniform edges and for non-uniform edges of the same orientation; refuted for periodic uniform edges and for non-uniform edges of opposite orientation, with witnesses."
  },
  {
   "property": "C62",
   "status": "proved",
   "theorems": [
    "Verif.OrthoTransforms.c62_jacobian_matrix",
    "Verif.OrthoTransforms.c62_jacobian",
    "Verif.OrthoTransforms.c62_jacobian_aligned",
    "Verif.OrthoTransforms.c62_jacobian_wrong_sign",
    "Verif.OrthoTransforms.c62_jacobian_wrong_sign_witness",
    "Verif.OrthoTransforms.c62_apply",
    "Verif.OrthoTransforms.c62_apply_part",
    "Verif.OrthoTransforms.c62_component_cartesian",
    "Verif.OrthoTransforms.c62_component_curvilinear",
    "Verif.OrthoTransforms.c62_inverse",
    "Verif.OrthoTransforms.c62_identity_apply",
    "Verif.OrthoTransforms.c62_identity_matrix",
    "Verif.OrthoTransforms.c62_identity_transform"
   ],
   "note": "The determinant claim is refuted when the argument tags are an odd rearrangement of the tags of the transforms; jacobian_component does not compile for curvilinear arguments."
  },
  {
   "property": "C45",
   "status": "proved",
   "theorems": [
    "Verif.Splitting.c45_xvx_total_time",
    "Verif.Splitting.c45_xyvxvy_total_time",
    "Verif.Splitting.c45_xvx_reversible",
    "Verif.Splitting.c45_xyvxvy_reversible",
    "Verif.Splitting.c45_rhs_total_time",
    "Verif.Splitting.c45_rhs_reversible_one",
    "Verif.Splitting.c45_rhs_not_reversible",
    "Verif.Splitting.c45_documented_reversible",
    "Verif.Splitting.c45_rhs_documented_comm",
    "Verif.Splitting.c45_xvx_second_order",
    "Verif.Splitting.c45_xyvxvy_second_order",
    "Verif.Splitting.c45_mpi_eq_serial",
    "Verif.Splitting.c45_transpose_roundtrip"
   ],
   "note": "The right-hand-side splitting is refuted as a symmetric splitting: its second pass runs in the same order although the documentation says reversed."
  },
  {
   "property": "C46",
   "status": "proved",
   "theorems": [
    "Verif.TimeLoops.c46_xvx",
    "Verif.TimeLoops.c46_xvx_event",
    "Verif.TimeLoops.c46_xvx_count",
    "Verif.TimeLoops.c46_xvx_restart",
    "Verif.TimeLoops.c46_xvx_restart_events",
    "Verif.TimeLoops.c46_xyvxvy",
    "Verif.TimeLoops.c46_xyvxvy_restart",
    "Verif.TimeLoops.c46_xy",
    "Verif.TimeLoops.c46_xy_restart",
    "Verif.TimeLoops.c46_polar_rk2",
    "Verif.TimeLoops.c46_polar_rk2_time_wrong",
    "Verif.TimeLoops.c46_polar_rk2_duplicate_time",
    "Verif.TimeLoops.c46_polar_rk2_restart",
    "Verif.TimeLoops.c46_explicit",
    "Verif.TimeLoops.c46_explicit_restart",
    "Verif.TimeLoops.c46_implicit_host",
    "Verif.TimeLoops.c46_implicit_device_stale",
    "Verif.TimeLoops.c46_implicit_device_events",
    "Verif.TimeLoops.c46_implicit_restart"
   ],
   "note": "Holds for all loops except: the polar RK2 loop reports a wrong time, and the implicit polar loop outputs a stale density on devices; both shown."
  },
  {
   "property": "C47",
   "status": "proved",
   "theorems": [
    "Verif.TimeLoops.c47_explicit_actual",
    "Verif.TimeLoops.c47_explicit_stationary",
    "Verif.TimeLoops.c47_explicit_not_documented",
    "Verif.TimeLoops.c47_documented_second_order",
    "Verif.TimeLoops.c47_explicit_only_first_order",
    "Verif.TimeLoops.c47_implicit_loop",
    "Verif.TimeLoops.c47_implicit_loop_code",
    "Verif.TimeLoops.c47_sqDiff_bound",
    "Verif.TimeLoops.c47_implicit_actual",
    "Verif.TimeLoops.c47_implicit_predictor_not_documented"
   ],
   "note": "The documented schemes are refuted; what the code computes is proved."
  },
  {
   "property": "C48",
   "status": "proved",
   "theorems": [
    "Verif.Species.c48_ielec",
    "Verif.Species.c48_init",
    "Verif.Species.c48_init_species",
    "Verif.Species.c48_at_most_one",
    "Verif.Species.c48_kinetic_electron_mass",
    "Verif.Species.c48_adiabatic_electron_mass",
    "Verif.Species.c48_kinetic"
   ],
   "note": "With adiabatic electrons the electron mass lookup is out of range: shown."
  },
  {
   "property": "C49",
   "status": "proved",
   "theorems": [
    "Verif.GridTools.c49_restrict",
    "Verif.GridTools.c49_unique",
    "Verif.GridTools.c49_inside",
    "Verif.GridTools.c49_periodic",
    "Verif.GridTools.c49_bspline",
    "Verif.GridTools.c49_bspline_non_periodic",
    "Verif.GridTools.c49_length_uniform",
    "Verif.GridTools.c49_length",
    "Verif.GridTools.c49_max_distance"
   ],
   "note": "Real arithmetic."
  },
  {
   "property": "C50",
   "status": "proved",
   "theorems": [
    "Verif.GridTools.c50_uniform",
    "Verif.GridTools.c50_uniform_increasing",
    "Verif.GridTools.c50_random",
    "Verif.GridTools.c50_random_default_not_increasing",
    "Verif.GridTools.c50_random_default"
   ],
   "note": "Real arithmetic; with the default non-uniformity two neighbouring break points can coincide."
  },
  {
   "property": "C51",
   "status": "proved",
   "theorems": [
    "Verif.GridTools.c51_reject_sound",
    "Verif.GridTools.c51_accept_complete",
    "Verif.GridTools.c51_number",
    "Verif.GridTools.c51_non_periodic",
    "Verif.GridTools.c51_missed",
    "Verif.GridTools.c51_uniform",
    "Verif.GridTools.c51_refused_singular",
    "Verif.GridTools.c51_well_posed_accepted",
    "Verif.GridTools.c51_greville_accepted",
    "Verif.GridTools.c51_accepted_singular"
   ],
   "note": "An overconstrained set that the check misses is exhibited."
  },
  {
   "property": "C59",
   "status": "proved",
   "theorems": [
    "Verif.Input.c59_extension",
    "Verif.Input.c59_returns",
    "Verif.Input.c59_dumps",
    "Verif.Input.c59_fails",
    "Verif.Input.c59_overload",
    "Verif.Input.c59_iteration",
    "Verif.Input.c59_negative_accepted",
    "Verif.Input.c59_not_a_number"
   ],
   "note": "A restart iteration that is negative or not a number is accepted silently: shown."
  },
  {
   "property": "C60",
   "status": "proved",
   "theorems": [
    "Verif.Initial.c60_floor",
    "Verif.Initial.c60_floor_2d",
    "Verif.Initial.c60_floor_no_perturb",
    "Verif.Initial.c60_small_amplitude",
    "Verif.Initial.c60_periodic",
    "Verif.Initial.c60_mass",
    "Verif.Initial.c60_mass_unresolved",
    "Verif.Initial.c60_2d_bound",
    "Verif.Initial.c60_kelvin_helmholtz"
   ],
   "note": "Real arithmetic."
  },
  {
   "property": "C65",
   "status": "proved",
   "theorems": [
    "Verif.Initial.c65_maxwellian",
    "Verif.Initial.c65_bump_eq",
    "Verif.Initial.c65_bump",
    "Verif.Initial.c65_maxwellian_2d",
    "Verif.Initial.c65_vpar_mu",
    "Verif.Initial.c65_vpar_mu_temperature",
    "Verif.Initial.c65_vpar_mu_density_iff"
   ],
   "note": "Integrals over the whole velocity space. Refuted for the (vpar, mu) Maxwellian unless the mass is 1."
  },
  {
   "property": "C66",
   "status": "proved",
   "theorems": [
    "Verif.Initial.c66_root",
    "Verif.Initial.c66_no_inner_wall",
    "Verif.Initial.c66_discrepancy",
    "Verif.Initial.c66_inner_wall_wrong",
    "Verif.Initial.c66_density"
   ],
   "note": "The documented dispersion relation is solved only without inner wall; the exact discrepancy is proved."
  },
  {
   "property": "C67",
   "status": "proved",
   "theorems": [
    "Verif.Initial.c67_norm_is_max",
    "Verif.Initial.c67_normalised",
    "Verif.Initial.c67_step",
    "Verif.Initial.c67_find_equilibrium",
    "Verif.Initial.c67_density",
    "Verif.Initial.c67_init"
   ],
   "note": "The Poisson solver is a parameter, assumed linear with a maximum principle."
  },
  {
   "property": "C54",
   "status": "proved",
   "theorems": [
    "Verif.Advection.c54_stepper_constant",
    "Verif.Advection.c54_stepper_zero",
    "Verif.Advection.c54_constant_field",
    "Verif.Advection.c54_translation",
    "Verif.Advection.c54_transport_equation",
    "Verif.Advection.c54_zero_step",
    "Verif.Advection.c54_zero_field",
    "Verif.Advection.c54_grid_shift",
    "Verif.Advection.c54_constant_function",
    "Verif.Advection.c54_linear",
    "Verif.Advection.c54_maximum_principle",
    "Verif.Advection.c54_two_steps",
    "Verif.Advection.c54_lines_independent",
    "Verif.Advection.c54_linear_field",
    "Verif.Advection.c54_spatial",
    "Verif.Advection.c54_velocity",
    "Verif.Advection.c54_vlasov_translation",
    "Verif.Advection.c54_null"
   ],
   "note": "Builder and evaluator are parameters; what is needed of them is a hypothesis of each theorem. Real arithmetic."
  },
  {
   "property": "C68",
   "status": "proved",
   "theorems": [
    "Verif.Advection.c68_update",
    "Verif.Advection.c68_velocity",
    "Verif.Advection.c68_update_exact",
    "Verif.Advection.c68_update_theta",
    "Verif.Advection.c68_constant_velocity",
    "Verif.Advection.c68_unified",
    "Verif.Advection.c68_single_valued",
    "Verif.Advection.c68_feet_theta",
    "Verif.Advection.c68_translation",
    "Verif.Advection.c68_euler",
    "Verif.Advection.c68_rk2",
    "Verif.Advection.c68_zero_step_feet",
    "Verif.Advection.c68_zero_step",
    "Verif.Advection.c68_zero_step_centre",
    "Verif.Advection.c68_constant_function",
    "Verif.Advection.c68_batches_independent",
    "Verif.Advection.c68_average",
    "Verif.Advection.c68_average_constant",
    "Verif.Advection.c68_centre",
    "Verif.Advection.c68_overloads_agree"
   ],
   "note": "Up to the 1e-15 neighbourhood of the centre where the code snaps feet to the O-point. Mapping, builder and evaluator are parameters."
  },
  {
   "property": "C52",
   "status": "proved",
   "theorems": [
    "Verif.Fem.c52_periodic_entries",
    "Verif.Fem.c52_stiffness",
    "Verif.Fem.c52_rhs",
    "Verif.Fem.c52_periodic_nonsingular",
    "Verif.Fem.c52_periodic",
    "Verif.Fem.c52_periodic_unique",
    "Verif.Fem.c52_stiffness_dirichlet",
    "Verif.Fem.c52_dirichlet_positive",
    "Verif.Fem.c52_symmetric",
    "Verif.Fem.c52_dirichlet",
    "Verif.Fem.c52_dirichlet_unique",
    "Verif.Fem.c52_dirichlet_energy",
    "Verif.Fem.c52_dirichlet_best",
    "Verif.Fem.c52_periodic_best",
    "Verif.Fem.c52_dirichlet_stable",
    "Verif.Fem.c52_written_dirichlet",
    "Verif.Fem.c52_written_periodic"
   ],
   "note": "The linear solver and the B-splines are parameters; the hypotheses on the spline space are shown satisfiable by hat functions. Real arithmetic."
  },
  {
   "property": "C53",
   "status": "proved",
   "theorems": [
    "Verif.Fft.c53_laplace_pos",
    "Verif.Fft.c53_round_trip",
    "Verif.Fft.c53_poisson",
    "Verif.Fft.c53_zero_mean",
    "Verif.Fft.c53_linear",
    "Verif.Fft.c53_cosine",
    "Verif.Fft.c53_sine",
    "Verif.Fft.c53_symmetric",
    "Verif.Fft.c53_energy_pos",
    "Verif.Fft.c53_energy",
    "Verif.Fft.c53_stable",
    "Verif.Fft.c53_nyquist"
   ],
   "note": "Exact discrete Fourier transforms on real arithmetic. The field component along a non-last dimension with an even number of points is wrong at the Nyquist mode: shown."
  },
  {
   "property": "C55",
   "status": "proved",
   "theorems": [
    "Verif.PolarSplines.c55_values",
    "Verif.PolarSplines.c55_partition",
    "Verif.PolarSplines.c55_number",
    "Verif.PolarSplines.c55_nbasis",
    "Verif.PolarSplines.c55_nonneg",
    "Verif.PolarSplines.c55_degree_one",
    "Verif.PolarSplines.c55_corner1",
    "Verif.PolarSplines.c55_corner2",
    "Verif.PolarSplines.c55_corner3",
    "Verif.PolarSplines.c55_overflow"
   ],
   "note": "Degrees up to 20, where the 64-bit factorials are exact; fails for degree 21: shown. Real arithmetic."
  },
  {
   "property": "C69",
   "status": "proved",
   "theorems": [
    "Verif.PolarSplines.c69_index_roundtrip",
    "Verif.PolarSplines.c69_index_roundtrip'",
    "Verif.PolarSplines.c69_index_range",
    "Verif.PolarSplines.c69_eval",
    "Verif.PolarSplines.c69_too_few_cells",
    "Verif.PolarSplines.c69_linear",
    "Verif.PolarSplines.c69_triangle",
    "Verif.PolarSplines.c69_elements_sum",
    "Verif.PolarSplines.c69_partition",
    "Verif.PolarSplines.c69_nonneg",
    "Verif.PolarSplines.c69_continuous",
    "Verif.PolarSplines.c69_smooth",
    "Verif.PolarSplines.c69_reproduces_affine",
    "Verif.PolarSplines.c69_outer",
    "Verif.PolarSplines.c69_periodic",
    "Verif.PolarSplines.c69_evaluate",
    "Verif.PolarSplines.c69_deriv",
    "Verif.PolarSplines.c69_integral_singular",
    "Verif.PolarSplines.c69_integral_tensor"
   ],
   "note": "The 1D B-splines are parameters. With exactly C + 1 radial cells the evaluation reads out of range: shown. Real arithmetic."
  },
  {
   "property": "C58",
   "status": "proved",
   "theorems": [
    "Verif.Gyroaverage.c58_value",
    "Verif.Gyroaverage.c58_last_line",
    "Verif.Gyroaverage.c58_linear",
    "Verif.Gyroaverage.c58_constant",
    "Verif.Gyroaverage.c58_bounds",
    "Verif.Gyroaverage.c58_zero_radius",
    "Verif.Gyroaverage.c58_last_line_wrong",
    "Verif.Gyroaverage.c58_affine",
    "Verif.Gyroaverage.c58_polynomial",
    "Verif.Gyroaverage.c58_accuracy",
    "Verif.Gyroaverage.c58_smooth",
    "Verif.Gyroaverage.c58_quadratic",
    "Verif.Gyroaverage.c58_batches"
   ],
   "note": "Linear and preserves constants; but the last poloidal line is overwritten by the first one, which is wrong on a periodic grid (which does not hold its end point): shown. Builder, evaluator and mapping are parameters."
  },
  {
   "property": "C70",
   "status": "proved",
   "theorems": [
    "Verif.DiffOps.c70_norm",
    "Verif.DiffOps.c70_gradient",
    "Verif.DiffOps.c70_gradient_field",
    "Verif.DiffOps.c70_bracket",
    "Verif.DiffOps.c70_bracket_fields",
    "Verif.DiffOps.c70_bracket_algebra",
    "Verif.DiffOps.c70_bracket_direction",
    "Verif.DiffOps.c70_bracket_vector",
    "Verif.DiffOps.c70_curl",
    "Verif.DiffOps.c70_curl_grad",
    "Verif.DiffOps.c70_cartesian_argument",
    "Verif.DiffOps.c70_cartesian_argument_wrong"
   ],
   "note": "Exact arithmetic; tensor_mul as Einstein sum (C36). Finding: Cartesian-tagged logical dimensions scale eps by J instead of 1/J."
  },
  {
   "property": "C71",
   "status": "proved",
   "theorems": [
    "Verif.SplineCache.c71_cache_contents",
    "Verif.SplineCache.c71_protocol",
    "Verif.SplineCache.c71_stale",
    "Verif.SplineCache.c71_stale_wrong",
    "Verif.SplineCache.c71_instances_share",
    "Verif.SplineCache.c71_gradients",
    "Verif.SplineCache.c71_opposite_orders"
   ],
   "note": "Builder and evaluator arbitrary. Finding: stale coefficients outside the documented call order."
  },
  {
   "property": "C72",
   "status": "proved",
   "theorems": [
    "Verif.InterfaceDerivs.c72_non_uniform",
    "Verif.InterfaceDerivs.c72_chosen_cells",
    "Verif.InterfaceDerivs.c72_two_cells",
    "Verif.InterfaceDerivs.c72_one_cell",
    "Verif.InterfaceDerivs.c72_uniform_formula",
    "Verif.InterfaceDerivs.c72_uniform",
    "Verif.InterfaceDerivs.c72_uniform_wrong"
   ],
   "note": "Cubic splines over real arithmetic. Findings: two cells on patch 1 give the coefficients of the previous step, one cell reads out of range, the uniform case swaps the two cell lengths."
  },
  {
   "property": "C73",
   "status": "proved",
   "theorems": [
    "Verif.NDLagrange.c73_tensor",
    "Verif.NDLagrange.c73_reproduce",
    "Verif.NDLagrange.c73_knots",
    "Verif.NDLagrange.c73_polynomials",
    "Verif.NDLagrange.c73_builder",
    "Verif.NDLagrange.c73_builder_one_periodic",
    "Verif.NDLagrange.c73_builder_two_periodic",
    "Verif.NDLagrange.c73_outside_hangs",
    "Verif.NDLagrange.c73_periodic_out_of_range"
   ],
   "note": "Recursive evaluator and builder for any number of dimensions; with two periodic dimensions coefficients are never written, and outside the domain the rules are not applied (proved with witnesses)."
  },
  {
   "property": "C74",
   "status": "proved",
   "theorems": [
    "Verif.PolarFem.c74_structure",
    "Verif.PolarFem.c74_writes",
    "Verif.PolarFem.c74_values",
    "Verif.PolarFem.c74_product",
    "Verif.PolarFem.c74_rhs",
    "Verif.PolarFem.c74_solution",
    "Verif.PolarFem.c74_symmetric_psd",
    "Verif.PolarFem.c74_definite",
    "Verif.PolarFem.c74_exists_unique",
    "Verif.PolarFem.c74_energy",
    "Verif.PolarFem.c74_best",
    "Verif.PolarFem.c74_reproduces",
    "Verif.PolarFem.c74_singular",
    "Verif.PolarFem.c74_too_few_cells",
    "Verif.PolarFem.c74_overrun"
   ],
   "note": "Real arithmetic; the linear solver itself (Ginkgo) is not modelled: c74_solution is about any x that solves the assembled system. Findings: 2p+1 poloidal cells leave the tensor-tensor columns unwritten, fewer overrun the allocation."
  },
  {
   "property": "C75",
   "status": "proved",
   "theorems": [
    "Verif.GuidingCentre.c75_physical",
    "Verif.GuidingCentre.c75_flux",
    "Verif.GuidingCentre.c75_logical",
    "Verif.GuidingCentre.c75_linearised",
    "Verif.GuidingCentre.c75_o_point",
    "Verif.GuidingCentre.c75_discrete"
   ],
   "note": "Real arithmetic; the spline of the potential is any function whose derivatives the evaluator returns."
  },
  {
   "property": "C76",
   "status": "proved",
   "theorems": [
    "Verif.MultipatchSpline.c76_patch",
    "Verif.MultipatchSpline.c76_value",
    "Verif.MultipatchSpline.c76_deriv",
    "Verif.MultipatchSpline.c76_deriv_outside",
    "Verif.MultipatchSpline.c76_null",
    "Verif.MultipatchSpline.c76_constant",
    "Verif.MultipatchSpline.c76_continuous",
    "Verif.MultipatchSpline.c76_fields",
    "Verif.MultipatchSpline.c76_integral",
    "Verif.MultipatchSpline.c76_norm",
    "Verif.MultipatchSpline.c76_error_norm",
    "Verif.MultipatchSpline.c76_constant_other_domain"
   ],
   "note": "Real arithmetic; DDC bases are any functions meeting IsBasis. Finding: the extrapolation rule gets an angle wrapped into the poloidal domain of the first patch."
  },
  {
   "property": "C77",
   "status": "proved",
   "theorems": [
    "Verif.DerivField.c77_access",
    "Verif.DerivField.c77_injective",
    "Verif.DerivField.c77_surjective",
    "Verif.DerivField.c77_write_read",
    "Verif.DerivField.c77_slice",
    "Verif.DerivField.c77_slice_position_needed",
    "Verif.DerivField.c77_ranges",
    "Verif.DerivField.c77_ranges_only",
    "Verif.DerivField.c77_view",
    "Verif.DerivField.c77_lifetime",
    "Verif.DerivField.c77_move_assign"
   ],
   "note": "Any number and order of dimensions. get_mdspan is not modelled. Findings: defaulted move assignment frees twice; slices of derivatives without the position read the wrong point (the README warns about that one)."
  },
  {
   "property": "C78",
   "status": "proved",
   "theorems": [
    "Verif.SplineBuilderDeriv.c78_arguments",
    "Verif.SplineBuilderDeriv.c78_boundary_field",
    "Verif.SplineBuilderDeriv.c78_orders",
    "Verif.SplineBuilderDeriv.c78_unchecked"
   ],
   "note": "The DDC builder itself is not modelled: the theorems are about the arguments it receives. Finding: the announced check of the number of derivatives is not implemented."
  },
  {
   "property": "C79",
   "status": "proved",
   "theorems": [
    "Verif.BatchSparse.c79_storage",
    "Verif.BatchSparse.c79_assert_off_by_one",
    "Verif.BatchSparse.c79_constructor",
    "Verif.BatchSparse.c79_constructor_strides",
    "Verif.BatchSparse.c79_ell_norm",
    "Verif.BatchSparse.c79_csr_norm",
    "Verif.BatchSparse.c79_norm_bound",
    "Verif.BatchSparse.c79_batched_solve",
    "Verif.BatchSparse.c79_loop_solve",
    "Verif.BatchSparse.c79_relative_small",
    "Verif.BatchSparse.c79_relative_mismatch",
    "Verif.BatchSparse.c79_relative_accepts"
   ],
   "note": "Ginkgo is a parameter (any function giving solutions and logged residuals). Findings: assertion off by one, strides ignored, relative tolerance checked as an absolute one."
  },
  {
   "property": "C80",
   "status": "proved",
   "theorems": [
    "Verif.Drivers.c80_interval",
    "Verif.Drivers.c80_coll_interval",
    "Verif.Drivers.c80_xvx_files",
    "Verif.Drivers.c80_xyvxvy_files",
    "Verif.Drivers.c80_xvx_restart",
    "Verif.Drivers.c80_xvx_restart_missing",
    "Verif.Drivers.c80_zero_interval",
    "Verif.Drivers.c80_last_saved",
    "Verif.Drivers.c80_interval_rounding",
    "Verif.Drivers.c80_xy_files",
    "Verif.Drivers.c80_polar_files",
    "Verif.Drivers.c80_guiding_centre_steps",
    "Verif.Drivers.c80_polar_steps",
    "Verif.Drivers.c80_polar_loss",
    "Verif.Drivers.c80_coll_files"
   ],
   "note": "Numerical operators are parameters; the directory is a function from file numbers to contents. Findings: zero output interval, truncation after rounding, polar simulations stop early."
  },
  {
   "property": "C81",
   "status": "proved",
   "theorems": [
    "Verif.PolarDrivers.c81_diocotron",
    "Verif.PolarDrivers.c81_vortex_perturbation_lost",
    "Verif.PolarDrivers.c81_vortex_independent",
    "Verif.PolarDrivers.c81_vortex_phi_eq",
    "Verif.PolarDrivers.c81_equation",
    "Verif.PolarDrivers.c81_guiding_centre"
   ],
   "note": "Findings: vortex merger perturbation lost (deepcopy with the wrong destination), potential of uninitialised memory saved, sign of the Poisson equation."
  },
  {
   "property": "C82",
   "status": "proved",
   "theorems": [
    "Verif.CollisionInterface.c82_pow2",
    "Verif.CollisionInterface.c82_spoofed_layout",
    "Verif.CollisionInterface.c82_replicate",
    "Verif.CollisionInterface.c82_arguments",
    "Verif.CollisionInterface.c82_vparMu",
    "Verif.CollisionInterface.c82_distribution",
    "Verif.CollisionInterface.c82_accepted",
    "Verif.CollisionInterface.c82_mu_unchecked",
    "Verif.CollisionInterface.c82_released_once",
    "Verif.CollisionInterface.c82_all_released",
    "Verif.CollisionInterface.c82_copy_releases_twice"
   ],
   "note": "koliop itself is external and not modelled. Findings: mu uniformity unchecked, double release after a copy."
  },
  {
   "property": "C83",
   "status": "proved",
   "theorems": [
    "Verif.VectorFields.c83_mem",
    "Verif.VectorFields.c83_get_read",
    "Verif.VectorFields.c83_pointers",
    "Verif.VectorFields.c83_span",
    "Verif.VectorFields.c83_slice_idx",
    "Verif.VectorFields.c83_slice_range",
    "Verif.VectorFields.c83_slice_slice",
    "Verif.VectorFields.c83_assign",
    "Verif.VectorFields.c83_deepcopy",
    "Verif.VectorFields.c83_deepcopy_refused",
    "Verif.VectorFields.c83_mirror",
    "Verif.VectorFields.c83_unchecked_ranges",
    "Verif.VectorFields.c83_alias",
    "Verif.VectorFields.inj_layoutRight",
    "Verif.VectorFields.inj_sliceIdx"
   ],
   "note": "Two findings: fields with different index ranges are accepted (idx_range() looks at the first component only, the extents assertion of deepcopy too) and one pointer for two components is accepted."
  },
  {
   "property": "C84",
   "status": "proved",
   "theorems": [
    "Verif.MultipatchData.c84_get",
    "Verif.MultipatchData.c84_get_iff",
    "Verif.MultipatchData.c84_shared_type",
    "Verif.MultipatchData.c84_reorder",
    "Verif.MultipatchData.c84_reorder_accepted",
    "Verif.MultipatchData.c84_convert",
    "Verif.MultipatchData.c84_map",
    "Verif.MultipatchData.c84_field_mem",
    "Verif.MultipatchData.c84_owning_constructor",
    "Verif.MultipatchData.c84_deepcopy"
   ],
   "note": "Findings: std::get by type makes patches with a common element type unreadable; MultipatchFieldMem(label, fields...) calls a base constructor that does not exist."
  },
  {
   "property": "C85",
   "status": "proved",
   "theorems": [
    "Verif.MultipatchData.c85_edge_bc",
    "Verif.MultipatchData.c85_missing_edge",
    "Verif.MultipatchData.c85_builder",
    "Verif.MultipatchData.c85_builder_2d",
    "Verif.MultipatchData.c85_build",
    "Verif.MultipatchData.c85_same_builder_type",
    "Verif.MultipatchData.c85_collection"
   ],
   "note": "Finding: builders are looked up by type, so two patches with the same basis, grid and conditions cannot be used together."
  },
  {
   "property": "C86",
   "status": "proved",
   "theorems": [
    "Verif.Interpolators.c86_lagrange_accepted",
    "Verif.Interpolators.c86_lagrange_uniform",
    "Verif.Interpolators.c86_lagrange_non_uniform",
    "Verif.Interpolators.c86_clamp",
    "Verif.Interpolators.c86_lagrange_periodic",
    "Verif.Interpolators.c86_spline_accepted",
    "Verif.Interpolators.c86_spline_rules",
    "Verif.Interpolators.c86_spline_periodic",
    "Verif.Interpolators.c86_spline_continuous",
    "Verif.Interpolators.c86_null_jump"
   ],
   "note": "DDC's spline builder and evaluator are outside the repository: the spline inside the domain is an arbitrary function."
  },
  {
   "property": "C87",
   "status": "proved",
   "theorems": [
    "Verif.QnSolver.c87_fft_background",
    "Verif.QnSolver.c87_fft_xvx",
    "Verif.QnSolver.c87_fft_xyvxvy",
    "Verif.QnSolver.c87_fft_mpi",
    "Verif.QnSolver.c87_fft_uniform",
    "Verif.QnSolver.c87_fem_background",
    "Verif.QnSolver.c87_fem_periodic_xvx",
    "Verif.QnSolver.c87_fem_dirichlet_xvx_iff",
    "Verif.QnSolver.c87_null",
    "Verif.QnSolver.c87_assert"
   ],
   "note": "Builds on C44, C52, C53. The spline of the density in the finite element solver is assumed to add constants (partition of unity)."
  },
  {
   "property": "C88",
   "status": "proved",
   "theorems": [
    "Verif.PartialDerivs.c88_snapshot",
    "Verif.PartialDerivs.c88_make_pure",
    "Verif.PartialDerivs.c88_quadratic",
    "Verif.PartialDerivs.c88_in_place",
    "Verif.PartialDerivs.c88_gradient",
    "Verif.PartialDerivs.c88_gradient_alias_witness",
    "Verif.PartialDerivs.c88_rhs_view"
   ],
   "note": "One line of the batch; DDC's spline builder and evaluator are arbitrary functions. Finding: a gradient whose result contains the field itself is wrong in the later components."
  },
  {
   "property": "C89",
   "status": "proved",
   "theorems": [
    "Verif.Pdi.c89_read",
    "Verif.Pdi.c89_arguments",
    "Verif.Pdi.c89_trailing_argument",
    "Verif.Pdi.c89_same_vector",
    "Verif.Pdi.c89_species"
   ],
   "note": "PDI and decl_hdf5 are external: their documented behaviour (stacks of shared references, metadata kept at reclaim, arrays sized by $<name>_extents) is the model. Three findings."
  },
  {
   "property": "C90",
   "status": "proved",
   "theorems": [
    "Verif.Pdi.c90_file",
    "Verif.Pdi.c90_front_needed",
    "Verif.Pdi.c90_vector_field",
    "Verif.Pdi.c90_mesh"
   ],
   "note": "HDF5 hyperslab selections are modelled at the level of multi-indices with row-major buffers. Uses C01."
  },
  {
   "property": "C91",
   "status": "proved",
   "theorems": [
    "Verif.MeshInit.c91_uniform",
    "Verif.MeshInit.c91_non_uniform",
    "Verif.MeshInit.c91_uniform_user",
    "Verif.MeshInit.c91_non_uniform_user",
    "Verif.MeshInit.c91_once",
    "Verif.MeshInit.c91_missing",
    "Verif.MeshInit.c91_pseudo_uniform",
    "Verif.MeshInit.c91_mesh_file",
    "Verif.MeshInit.c91_grid_name",
    "Verif.MeshInit.c91_negative_cells"
   ],
   "note": "Uses C89 for the reading and C50 for the break points; DDC's initialisation of discrete spaces is modelled as write-once."
  },
  {
   "property": "C92",
   "status": "proved",
   "theorems": [
    "Verif.ViewStream.c92_defined",
    "Verif.ViewStream.c92_empty",
    "Verif.ViewStream.c92_faithful",
    "Verif.ViewStream.c92_line"
   ],
   "note": "The output is a list of characters; the printing of one element is a parameter."
  },
  {
   "property": "C93",
   "status": "proved",
   "theorems": [
    "Verif.RkOrder.c93_euler",
    "Verif.RkOrder.c93_rk2",
    "Verif.RkOrder.c93_rk3",
    "Verif.RkOrder.c93_rk4",
    "Verif.RkOrder.c93_crank_nicolson",
    "Verif.RkOrder.c93_cn_small_steps_are_euler",
    "Verif.RkOrder.c93_cn_not_second_order"
   ],
   "note": "Local and global error bounds for arbitrary nonlinear f on arbitrary normed spaces; f need not be globally Lipschitz. Exact real arithmetic."
  },
  {
   "property": "C94",
   "status": "proved",
   "theorems": [
    "Verif.Simulation.c94_fft_translation",
    "Verif.Simulation.c94_translation_xvx",
    "Verif.Simulation.c94_homogeneous_xvx",
    "Verif.Simulation.c94_mass_x",
    "Verif.Simulation.c94_free_streaming",
    "Verif.Simulation.c94_translation_xyvxvy",
    "Verif.Simulation.c94_homogeneous_xyvxvy",
    "Verif.Simulation.c94_mass_xy",
    "Verif.Simulation.c94_lagrange",
    "Verif.Simulation.c94_spline",
    "Verif.Simulation.c94_degree_one"
   ],
   "note": "Composition of the models of the operators. The properties of DDC's uniform periodic splines are the hypotheses of UniformPeriodicSpline; the Lagrange interpolator is the model of the code."
  },
  {
   "property": "C95",
   "status": "proved",
   "theorems": [
    "Verif.AccuracyQuad.c95_trapezoid",
    "Verif.AccuracyQuad.c95_simpson",
    "Verif.AccuracyQuad.c95_simpson_uniform",
    "Verif.AccuracyQuad.c95_fdm",
    "Verif.AccuracyQuad.c95_fdm_periodic",
    "Verif.AccuracyGauss.c95_gauss_legendre",
    "Verif.AccuracyLagrange.c95_lagrange_derivs_non_uniform",
    "Verif.AccuracyLagrange.c95_lagrange_derivs_uniform",
    "Verif.AccuracyLagrange.c95_evaluator_uniform",
    "Verif.AccuracyLagrange.c95_evaluator_non_uniform",
    "Verif.AccuracyLagrange.c95_evaluator_uniform_periodic",
    "Verif.AccuracyLagrange.c95_evaluator_non_uniform_periodic",
    "Verif.AccuracyAdvection.c95_advection_linear",
    "Verif.AccuracyAdvection.c95_advection_cubic_stable",
    "Verif.AccuracyAdvection.c95_advection_cubic"
   ],
   "note": "Exact real arithmetic. The quadratures and differences are those of C14, C15, C16, C28; the bases and evaluators those of C17-C19; the advection that of C94."
  },
  {
   "property": "C96",
   "status": "proved",
   "theorems": [
    "Verif.Parallel.c96_outcome",
    "Verif.Parallel.c96_deterministic",
    "Verif.Parallel.c96_sequential",
    "Verif.Parallel.c96_completes",
    "Verif.Parallel.c96_terminates",
    "Verif.Parallel.c96_has_outcome",
    "Verif.Parallel.c96_copy",
    "Verif.Parallel.c96_range",
    "Verif.Parallel.c96_trapezoid",
    "Verif.Parallel.c96_simpson_centre_left",
    "Verif.Parallel.c96_simpson_overlap",
    "Verif.Parallel.c96_simpson_fused_race",
    "Verif.Parallel.c96_lost_update",
    "Verif.Parallel.c96_fem_rhs",
    "Verif.Parallel.c96_tridiag",
    "Verif.Parallel.c96_collisions",
    "Verif.Parallel.c96_transpose",
    "Verif.Parallel.c96_unify",
    "Verif.Parallel.c96_ring",
    "Verif.Parallel.c96_stores",
    "Verif.Parallel.c96_team",
    "Verif.Parallel.c96_polar_columns",
    "Verif.Parallel.c96_polar_values"
   ],
   "note": "Small-step interleaving semantics of parallel loops at the level of single accesses; a general theorem for race-free loops (owned locations, read-only locations, atomically accumulated locations) and its instances for the loops of the code, connected to the functions of the other properties (C04, C13, C14, C23, C32, C39, C63, C74). Simplification: sequentially consistent memory and real numbers."
  },
  {
   "property": "C97",
   "status": "proved",
   "theorems": [
    "Verif.Rounding.c97_quadrature",
    "Verif.Rounding.c97_quadrature_schedules",
    "Verif.Rounding.c97_quadrature_sign",
    "Verif.Rounding.c97_norm_L1",
    "Verif.Rounding.c97_norm_L2",
    "Verif.Rounding.c97_error_norm_inf",
    "Verif.Rounding.c97_quadrature_exact"
   ],
   "note": "Relational model of rounding (standard model without under/overflow), reduction trees of C29; exact arithmetic is recovered for u = 0."
  },
  {
   "property": "C98",
   "status": "proved",
   "theorems": [
    "Verif.Rounding.c98_backward_stable",
    "Verif.Rounding.c98_forward_error",
    "Verif.Rounding.c98_exact",
    "Verif.Rounding.pivots",
    "Verif.Rounding.dominant_bound"
   ],
   "note": "Backward error analysis of the code's own variant of Thomas' algorithm; with u = 0 the relation is the solver of C23, and it has a run for every u."
  },
  {
   "property": "C99",
   "status": "proved",
   "theorems": [
    "Verif.AdvectionStability.c99_stable",
    "Verif.AdvectionStability.c99_stable_line",
    "Verif.AdvectionStability.c99_convergence",
    "Verif.AdvectionStability.c99_linear_bounds",
    "Verif.FloatAdvection.c99_negative",
    "Verif.Strang.symbol"
   ],
   "note": "Strang's theorem, proved for every degree: the Fourier symbol of the centred interpolation is c + i s with c, s truncated hypergeometric series which solve the equations of the cosine and the sine up to one term of known sign; Parseval's identity on the periodic grid."
  },
  {
   "property": "C100",
   "status": "proved",
   "theorems": [
    "Verif.SplineAdvection.c100_stable",
    "Verif.SplineAdvection.c100_interpolation",
    "Verif.SplineAdvection.c100_convergence",
    "Verif.SplineAdvection.exists_spline"
   ],
   "note": "DDC's splines enter through their interface only (the four pieces of the cubic B-spline and the interpolation conditions); exists_spline shows that the interface is met on every grid."
  },
  {
   "property": "C101",
   "status": "proved",
   "theorems": [
    "Verif.FreeStreaming.c101_xvx_stable",
    "Verif.FreeStreaming.c101_xvx_convergence",
    "Verif.FreeStreaming.c101_xyvxvy_stable",
    "Verif.FreeStreaming.c101_xyvxvy_convergence",
    "Verif.FreeStreaming.lagrange_good",
    "Verif.FreeStreaming.spline_good"
   ],
   "note": "GoodLine states what the interpolation has to satisfy; lagrange_good (every degree) and spline_good (cubic splines) prove it from C99 and C100."
  },
  {
   "property": "C102",
   "status": "proved",
   "theorems": [
    "Verif.FloatWrap.c102_ieee_relative",
    "Verif.FloatWrap.c102_ieee_nearest",
    "Verif.FloatWrap.c102_wrap_accuracy",
    "Verif.FloatWrap.c102_wrap_inside",
    "Verif.FloatWrap.c102_uniform_stencil",
    "Verif.FloatWrap.c102_uniform_in_range",
    "Verif.FloatWrap.c102_non_uniform_search",
    "Verif.FloatWrap.c102_wrap_outside_domain",
    "Verif.FloatWrap.c102_non_uniform_hangs",
    "Verif.FloatWrap.c102_restrict_accuracy",
    "Verif.FloatWrap.c102_restrict_ends",
    "Verif.FloatWrap.c102_restrict_outside"
   ],
   "note": "Unbounded exponents: no overflow, underflow or NaN. The trigonometric reduction of restrict_to_idx_range (more than ten periods away) is not in the floating-point model. The coordinates of the knots are computed by ddc: their error is a parameter."
  },
  {
   "property": "C103",
   "status": "proved",
   "theorems": [
    "Verif.FloatLagrange.c103_uniform",
    "Verif.FloatLagrange.c103_periodic",
    "Verif.FloatLagrange.c103_accuracy",
    "Verif.FloatLagrange.c103_non_uniform"
   ],
   "note": "Rounding relation Fl u (relative error u for each operation, no overflow or underflow). Knot coordinates are given up to an error tau; the periodic result needs at least two cells."
  },
  {
   "property": "C104",
   "status": "proved",
   "theorems": [
    "Verif.VlasovOrder.c104_xvx",
    "Verif.VlasovOrder.c104_xvx_source",
    "Verif.VlasovOrder.c104_xvx_documented",
    "Verif.VlasovOrder.c104_xyvxvy",
    "Verif.VlasovOrder.c104_xy",
    "Verif.VlasovOrder.c104_polar",
    "Verif.VlasovOrder.c104_xvx_two_sources",
    "Verif.VlasovOrder.c104_xvx_two_sources_not_second_order",
    "Verif.VlasovOrder.c104_vlasov_poisson"
   ],
   "note": "Time accuracy with exact sub-flows (no interpolation error); the flows are smooth in the norm of the state space, as for discretised operators. Extrapolation at the velocity boundary is not modelled."
  },
  {
   "property": "C105",
   "status": "proved",
   "theorems": [
    "Verif.IdealVlasov.c105_xvx",
    "Verif.IdealVlasov.c105_xvx_integrals",
    "Verif.IdealVlasov.c105_xvx_values",
    "Verif.IdealVlasov.c105_xyvxvy",
    "Verif.IdealVlasov.c105_xyvxvy_integrals",
    "Verif.IdealVlasov.c105_xyvxvy_values"
   ],
   "note": "The advection operators of the model are instantiated with an interpolator that makes no error on all of the phase space; there is no velocity boundary. What the interpolation changes is the subject of C33, C94-C103."
  },
  {
   "property": "C106",
   "status": "proved",
   "theorems": [
    "Verif.MpiProgram.c106_no_deadlock",
    "Verif.MpiProgram.c106_terminates",
    "Verif.MpiProgram.c106_completes",
    "Verif.MpiProgram.c106_deterministic",
    "Verif.MpiProgram.c106_mismatch_deadlocks",
    "Verif.MpiProgram.c106_spmd",
    "Verif.MpiTranspose.c106_counts",
    "Verif.MpiLandau.c106_constructor",
    "Verif.MpiLandau.c106_landau",
    "Verif.MpiLandau.c106_files",
    "Verif.MpiLandau.c106_same_on_any_number"
   ],
   "note": "Operational semantics of processes with collective calls; the program of landau4d_fft is modelled action by action (packing, MPI_Alltoall, unpacking, advections on the local flat arrays, local charge density, MPI_Allreduce, Poisson solver, transposition to the output layout, event, collective write). MPI itself is trusted through its specification (matching of the k-th calls, data delivered). Real arithmetic: MPI_SUM is exact, so the reduction order is irrelevant; in floating point results of different P differ by rounding. The hypothesis nsp = nkin or solver insensitive to a constant charge is needed because the adiabatic charge is counted once per process (C44, C87); the FFT solver satisfies it."
  },
  {
   "property": "C107",
   "status": "proved",
   "theorems": [
    "Verif.FloatQuad.c107_trapezoid_coefficients",
    "Verif.FloatQuad.c107_trapezoid_integral",
    "Verif.FloatQuad.c107_simpson_exact_run",
    "Verif.FloatQuad.c107_simpson_coefficients",
    "Verif.FloatQuad.c107_simpson_integral"
   ],
   "note": "Rounding is a relation (independent relative errors for every operation), as in C97 and C103. The distances are rounded too. Simpson coefficients may cancel (2 dl - dr): hence the bound relative to the magnitudes of the terms."
  },
  {
   "property": "C108",
   "status": "proved",
   "theorems": [
    "Verif.FloatRk.c108_one_step",
    "Verif.FloatRk.c108_many_steps",
    "Verif.FloatRk.c108_total_error",
    "Verif.FloatRk.c108_exact_step"
   ],
   "note": "Maximum norm over the index range. The rounding is a relation; the exact step is one of the possible runs (c108_exact_step). A custom y_update and Crank-Nicolson are not covered."
  },
  {
   "property": "C109",
   "status": "proved",
   "theorems": [
    "Verif.FloatAdvection.c109_one_step",
    "Verif.FloatAdvection.c109_stable",
    "Verif.FloatAdvection.c109_many_steps",
    "Verif.FloatAdvection.c109_mass",
    "Verif.FloatAdvection.c109_total_error",
    "Verif.FloatAdvection.exactStep_piece",
    "Verif.FloatAdvection.exactStep_stable",
    "Verif.FloatAdvection.disp_err",
    "Verif.FloatAdvection.exists_run",
    "Verif.FloatAdvection.sizes_binary64",
    "Verif.FloatAdvection.stepErr_binary64"
   ],
   "note": "Odd degrees only: for even degrees the piecewise interpolating polynomial is discontinuous in the middle of the cells, so that a rounding error can change a value by the size of the jump (the one-step bound to the polynomial of one of the two neighbouring stencils is C103). Arithmetic: relative error u per operation, no overflow or underflow."
  },
  {
   "property": "C110",
   "status": "proved",
   "theorems": [
    "Verif.DiscreteMapping.fill_interpolates",
    "Verif.DiscreteMapping.c110_mapping",
    "Verif.DiscreteMapping.c110_refined_breaks",
    "Verif.DiscreteMapping.c110_refined_mapping",
    "Verif.DiscreteMapping.c110_refined_once",
    "Verif.DiscreteMapping.c110_mixed",
    "Verif.DiscreteMapping.c110_dangling",
    "Verif.DiscreteMapping.c110_jacobian",
    "Verif.DiscreteMapping.c110_singular_points",
    "Verif.DiscreteMapping.c110_o_point",
    "Verif.DiscreteMapping.c110_control_points",
    "Verif.DiscreteMapping.c110_o_point_annulus",
    "Verif.DiscreteMapping.tensor_contract",
    "Verif.DiscreteMapping.tensor_edge"
   ],
   "note": "DDC's spline builder and evaluator are parameters with the contract of interpolation at distinct points and exact derivatives (shown satisfiable on every grid by tensor product polynomials). Discrete space initialisation is modelled as a global flag for each instantiation."
  },
  {
   "property": "C111",
   "status": "proved",
   "theorems": [
    "Verif.FloatPolar.c111_round_trip",
    "Verif.FloatPolar.c111_radius",
    "Verif.FloatPolar.c111_radius_recovered",
    "Verif.FloatPolar.c111_angle_range",
    "Verif.FloatPolar.c111_angle_is_period"
   ],
   "note": "Unbounded exponents, no signed zeros; the library functions are modelled by a bound of their relative error."
  },
  {
   "property": "C112",
   "status": "proved",
   "theorems": [
    "Verif.Crash.c112_every_file_right",
    "Verif.Crash.c112_any_interval",
    "Verif.Crash.c112_damage",
    "Verif.Crash.c112_torn_count",
    "Verif.Crash.c112_between_writes",
    "Verif.Crash.c112_killed_run",
    "Verif.Crash.c112_resume",
    "Verif.Crash.c112_same_as_uninterrupted",
    "Verif.Crash.c112_from_scratch",
    "Verif.Crash.c112_not_killed",
    "Verif.Crash.c112_restart_destroys_its_file",
    "Verif.Crash.c112_all_lost"
   ],
   "note": "Numerical operators are parameters. A file whose write was not finished is torn and cannot be read; the writes of different files are not reordered by the operating system. Real time arithmetic."
  },
  {
   "property": "C113",
   "status": "proved",
   "theorems": [
    "Verif.FloatFdm.c113_rounding",
    "Verif.FloatFdm.c113_boundary",
    "Verif.FloatFdm.c113_periodic",
    "Verif.FloatFdm.c113_accuracy",
    "Verif.FloatFdm.c113_periodic_accuracy",
    "Verif.FloatFdm.c113_exact_run",
    "Verif.FloatFdm.c113_growth"
   ],
   "note": "Rounding is the relation of C75 (no overflow, no underflow, no NaN); the coordinates, the samples and the length of the period are the doubles stored by the program."
  },
  {
   "property": "C114",
   "status": "proved",
   "theorems": [
    "Verif.BSpline.c114_dirichlet_space",
    "Verif.BSpline.c114_periodic_space",
    "Verif.BSpline.c114_dirichlet_solvable",
    "Verif.BSpline.c114_periodic_solvable",
    "Verif.BSpline.c114_dirichlet_walls",
    "Verif.BSpline.c114_dirichlet_converges",
    "Verif.BSpline.c114_dirichlet_potential",
    "Verif.BSpline.c114_periodic_converges",
    "Verif.BSpline.c114_periodic_problem",
    "Verif.BSpline.c114_unclamped_wall",
    "Verif.BSpline.c114_dirichlet_order",
    "Verif.BSpline.c114_dirichlet_potential_order",
    "Verif.BSpline.c114_periodic_order",
    "Verif.BSpline.c114_dirichlet_density",
    "Verif.BSpline.c114_dirichlet_potential_density",
    "Verif.BSpline.c114_periodic_density"
   ],
   "note": "discharges the hypotheses on the basis in C52; the B-splines are DDC's (outside the repository): their Cox-de Boor recursion and knots are stated in Model/BSpline.lean; real arithmetic; the density is taken at the quadrature points as the spline the code evaluates there"
  },
  {
   "property": "C115",
   "status": "proved",
   "theorems": [
    "Verif.SplineQuadrature.c115_periodic",
    "Verif.SplineQuadrature.c115_clamped",
    "Verif.SplineQuadrature.c115_neumann",
    "Verif.SplineQuadrature.c115_polynomial",
    "Verif.SplineQuadrature.c115_neumann_polynomial",
    "Verif.SplineQuadrature.c115_neumann_needs_slope",
    "Verif.SplineQuadrature.c115_accuracy",
    "Verif.SplineQuadrature.c115_periodic_accuracy",
    "Verif.SplineQuadrature.c115_coefficients_exist",
    "Verif.SplineInterp.c115_periodic_coefficients",
    "Verif.SplineInterp.c115_neumann_coefficients",
    "Verif.SplineInterp.c115_periodic_cubic",
    "Verif.SplineInterp.c115_neumann_cubic",
    "Verif.SplineInterp.c115_clamped_coefficients"
   ],
   "note": "builder.quadrature_coefficients() is DDC's and is modelled by the transposed system which the comment of the code describes; the splines are those of Model/BSpline.lean; the comment spline_quadrature.hpp:41 writes the system as q B^T = I_b where q B = I_b is meant (and needed)"
  },
  {
   "property": "C116",
   "status": "proved",
   "theorems": [
    "Verif.SplineInterp.c116_periodic_unique",
    "Verif.SplineInterp.c116_hermite_unique",
    "Verif.SplineInterp.c116_even_degree_singular",
    "Verif.SplineInterp.c116_periodic_accuracy",
    "Verif.SplineInterp.c116_hermite_accuracy",
    "Verif.SplineInterp.c116_periodic_interpolator",
    "Verif.SplineInterp.c116_hermite_interpolator",
    "Verif.SplineInterp.c116_periodic_exists",
    "Verif.SplineInterp.c116_hermite_exists",
    "Verif.SplineInterp.c116_points_unique",
    "Verif.SplineInterp.c116_greville_unique",
    "Verif.SplineInterp.c116_outside_singular"
   ],
   "note": "ddc::SplineBuilder is DDC's and is modelled by the equations which it solves (value at each interpolation point, derivatives at the ends), in real arithmetic; the evaluator with its extrapolation rules is that of Model/Interpolators.lean; the splines are those of Model/BSpline.lean"
  },
  {
   "property": "C117",
   "status": "proved",
   "theorems": [
    "Verif.PeriodicSplineAdvection.c117_mass",
    "Verif.PeriodicSplineAdvection.c117_stable",
    "Verif.PeriodicSplineAdvection.c117_converges",
    "Verif.PeriodicSplineAdvection.c117_spatial",
    "Verif.PeriodicSplineAdvection.c117_not_positive"
   ],
   "note": "real arithmetic; ddc::SplineBuilder is modelled by the interpolation problem (Model/SplineInterp.lean), the evaluator by Model/Interpolators.lean, the operators by Model/Advection.lean; the existence of such interpolators is interpolator_exists"
  },
  {
   "property": "C118",
   "status": "proved",
   "theorems": [
    "Verif.SplineInterp.c118_unique",
    "Verif.SplineInterp.c118_sweeps",
    "Verif.SplineInterp.c118_accuracy",
    "Verif.SplineInterp.c118_poloidal"
   ],
   "note": "ddc::SplineBuilder2D and ddc::SplineEvaluator2D are DDC's and are modelled by the equations which they solve and the sum which they evaluate, in real arithmetic; accuracy is proved for interpolation at the break points (not for Greville points of degree 3 and more)"
  },
  {
   "property": "C119",
   "status": "proved",
   "theorems": [
    "Verif.SplineInterp.c119_restrict",
    "Verif.SplineInterp.c119_restrict_periodic",
    "Verif.SplineInterp.c119_smooth_is_global",
    "Verif.SplineInterp.c119_two_patches",
    "Verif.SplineInterp.c119_restrict_2d",
    "Verif.SplineInterp.c119_smooth_2d"
   ],
   "note": "Real arithmetic. The DDC spline builder is outside the repository; it is modelled by the equations it solves (C116). c119_two_patches: no extra interpolation point at the boundary; patch 1 ends and patch 2 begins at the interface, all coordinates are distances to it."
  },
  {
   "property": "C120",
   "status": "proved",
   "theorems": [
    "Verif.Fft.c120_accuracy",
    "Verif.Fft.c120_order"
   ],
   "note": "Exact discrete Fourier transforms in real arithmetic (DDC/Kokkos-FFT are outside the repository). The density is given by its Fourier series. The wrong Nyquist component of the field (C53) is inside the bound, since waves at the Nyquist number are not among the resolved ones."
  },
  {
   "property": "C121",
   "status": "proved",
   "theorems": [
    "Verif.QnSolver.c121_accuracy",
    "Verif.QnSolver.c121_xyvxvy"
   ],
   "note": "Builds on C53, C87 and C120. Exact real arithmetic. The pointwise error of the quadrature is a hypothesis (C54, C112 bound it)."
  },
  {
   "property": "C122",
   "status": "proved",
   "theorems": [
    "Verif.Timestepper.c122_conservative",
    "Verif.Timestepper.c122_crank_nicolson",
    "Verif.Timestepper.c122_crank_nicolson_dissipative",
    "Verif.Timestepper.c122_oscillation",
    "Verif.Timestepper.c122_decay"
   ],
   "note": "Real arithmetic (rounding: C108). Default update functor y + dy dt."
  },
  {
   "property": "C123",
   "status": "proved",
   "theorems": [
    "Verif.Quadrature.c123_aliasing",
    "Verif.Quadrature.c123_exact",
    "Verif.Quadrature.c123_order",
    "Verif.Quadrature.c123_sharp",
    "Verif.Quadrature.c123_simpson_aliasing",
    "Verif.Quadrature.c123_simpson"
   ],
   "note": "Real arithmetic (C97 bounds the rounding). Same model of the coefficients as C13."
  }
 ]
}