# Formal model of gyselalibxx in Lean 4

## Layout

* `lean/Verif/Model/*.lean` - definitions that transcribe the C++ functions. Every definition cites the
  file and lines of /repo it models and says where it simplifies.
* `lean/Verif/Spec/*.lean` - small definitions used only to *state* properties (what is an integral, what is
  a partition, what is "the matrix described by these triplets"). They do not mention the model.
* `lean/Verif/Props/*.lean` - the theorems, with a concrete non-trivial instance (`example`) beside each
  group showing the hypotheses can be met.
* `properties.jsonl`, `MANIFEST.json` (property -> theorem names), `seeded/LOG.jsonl` (mutation log).

## Trusted base

* Lean 4.33.0's kernel, and Mathlib as installed (checked by the same kernel).
* Axioms: theorems depend on at most `propext`, `Classical.choice`, `Quot.sound`. No axiom is added, no
  `native_decide`, no `bv_decide`.
* The transcription from C++ to Lean is by hand: the comments citing the lines are the audit trail.

## Modelling choices that apply everywhere

* `double` is modelled by an exact field (`ℝ`, or any `Field`/`LinearOrderedField` where the operations allow).
  Rounding is *not* modelled, except where stated (C10 has a separate exact model of binary64 division because
  the property fails only because of rounding).
* Index types of DDC (`Idx`, `IdxRange`, `IdxStep`) are modelled by naturals/integers and lengths;
  fields by functions or lists on these indices. `parallel_for_each` bodies that write disjoint locations are
  modelled as pure maps; the C++ relies on Kokkos for this.
* Third-party code (DDC splines and FFT, LAPACK, Ginkgo, MPI, PDI) is not modelled: it appears as a function or as
  a hypothesis giving its documented contract (e.g. "the inner block solver returns Q^{-1} b").
* Undefined behaviour and thrown exceptions are modelled as distinct results (`Except`/`Option`) when the property
  is about them.
* C++ template meta-programs over type sequences are modelled as functions over lists.

## Properties

For each property: how it is modelled and proved, the file of its theorems, their names, and the remarks.

* **C01 MPI layout partitions the global index range** - Model/MpiLayout: recursion over the list of (extent, distributed?) exactly as the template recursion. Prove by induction on the dimension list; cover/disjoint via mixed radix decoding.
  * status: proved; Props/{MpiLayout}: `c01_partition`.
* **C02 MPI layout rejects exactly the indivisible cases** - Same model returning `Except`; arithmetic lemma P|n*m -> P/gcd(P,n)|m.
  * status: proved; Props/{MpiLayout}: `c02_error_iff`.
* **C03 All-to-all transposition delivers the right data to each rank** - Model/MpiTranspose: rank-indexed local arrays, pack/alltoall/unpack maps; prove equality with the restriction of the global field. Also a counterexample when tag order and distribution order differ.
  * status: proved; Props/{MpiTranspose}: `c03_transpose_to`, `c03_constructor`, `c03_order_mismatch_counterexample`.
  * Proved for layouts that list their distributed dimensions in tag order and share no distributed dimension; the counterexample shows that the code accepts other orders and then delivers wrong data.
* **C04 transpose_layout keeps the value at every multi-index** - Model/Transpose: loops over multi-indices as list products; prove pointwise equality by induction.
  * status: proved; Props/{Transpose}: `c04_transpose_values`, `c04_no_write_outside`.
* **C05 Runge-Kutta steppers have their advertised order on linear and quadrature problems** - Model/Timestepper over an arbitrary module; the stages are expanded to the stability polynomial / quadrature rule (module algebra), equality with the truncated exponential is stated in Spec/Timestepper.
  * status: proved; Props/{Timestepper}: `c05_euler_linear`, `c05_rk2_linear`, `c05_rk3_linear`, `c05_rk4_linear`, `c05_euler_quadrature`, `c05_rk2_quadrature`, `c05_rk3_quadrature`, `c05_rk4_quadrature`.
* **C06 Steppers preserve equilibria and linear invariants** - Same model; direct.
  * status: proved; Props/{Timestepper}: `c06_equilibrium`, `c06_linear_invariant`, `c06_cn_equilibrium`, `c06_cn_linear_invariant`.
* **C07 Crank-Nicolson fixed point iteration terminates and means what it says** - Model of the do-while with fuel = counter; induction.
  * status: proved; Props/{CnContraction, Timestepper}: `c07_iteration_count`, `c07_converged_meaning`, `c07_fixed_point`, `c07_residual`, `c07_contraction`, `c07_converges`, `c07_large_step`.
* **C08 Onion patch locator returns the patch containing the point** - Model/Onion: the while loop with measure; loop invariant.
  * status: proved; Props/{Onion}: `c08_locate`, `c08_constructor`.
* **C09 Edge coordinate transformation is an inverse pair** - Model/EdgeTransform over a linear ordered field; field arithmetic.
  * status: proved; Props/{EdgeTransform}: `c09_round_trip_nonperiodic`, `c09_round_trip`, `c09_ends`, `c09_order`, `c09_order_periodic`, `c09_stays_on_edge`.
* **C10 Matching of uniform interface grids finds exactly the coinciding points** - Exact rational model: gcd criterion <-> coincidence of points; the wrap loop as bounded iteration; a separate exact model of binary64 division gives the counterexample.
  * status: proved; Props/{EdgeRounding, EdgeTransform}: `c10_uniform_exact`, `c10_wrap`, `c10_wrap_limit_counterexample`, `c10_rounding_counterexample`, `c10_binary64_right`, `c10_binary64_error`, `c10_binary64_wrong`.
  * In binary64 the returned index can be off by one (c10_binary64_wrong, 1 cell facing 93); c10_binary64_right says when it is right.
* **C11 Dichotomy search on a non-uniform edge finds the enclosing or matching index** - Dichotomy loop with invariant.
  * status: proved; Props/{EdgeTransform}: `c11_finds_match`, `c11_sound`, `c11_single_point_diverges`.
* **C12 Multipatch connectivity queries follow the interface graph** - Type-list algorithms as list functions over abstract patches/edges; invariants.
  * status: proved; Props/{Connectivity}: `c12_grids`, `c12_interfaces`, `c12_interfaces_once`, `c12_flipped_ring_counterexample`, `c12_patch_connections`, `c12_find_connections`, `c12_inner_edges`, `c12_find_patch`, `c12_all_patches`, `c12_four_edges`, `c12_complete`, `c12_repeated_edge_accepted`.
  * The 'no repetition' part needs front-to-back interfaces; the flipped ring is a counterexample otherwise.
* **C13 Trapezoid coefficients integrate affine functions exactly** - Lists of coordinates; induction on the grid.
  * status: proved; Props/{Quadrature}: `c13_affine_exact`, `c13_is_piecewise_affine`, `c13_positive_and_total`.
* **C14 Simpson coefficients integrate quadratics exactly and reject wrong sizes** - Induction two cells at a time.
  * status: proved; Props/{Quadrature}: `c14_piecewise_parabola`, `c14_quadratic_exact`, `c14_cubic_exact`, `c14_rejects`, `c14_small_sizes_counterexample`, `c14_simpson_trapezoid_affine`, `c14_simpson_trapezoid_parts`.
* **C15 Composite Gauss-Legendre rule inherits the reference rule's exactness** - Cell mapping; exactness transported by affine change of variables, sum over cells.
  * status: proved; Props/{GaussLegendre, GaussLegendreNodes}: `c15_composite`, `c15_composite_exact`, `c15_tables`, `c15_points_increasing`, `c15_nodes_are_legendre_roots`.
* **C16 Multi-dimensional quadrature is the iterated quadrature** - Products/sums over index lists; Finset.sum_comm style.
  * status: proved; Props/{QuadratureND}: `c16_decode_bijective`, `c16_iterated`, `c16_product`, `c16_batched`, `c16_volume`.
* **C17 Lagrange basis reproduces polynomials** - Barycentric formula vs Mathlib `Lagrange`.
  * status: proved; Props/{Lagrange}: `c17_values_non_uniform`, `c17_values_uniform`, `c17_reproduction`.
* **C18 Lagrange basis derivatives are the derivatives of the basis** - All derivative orders: the loop over combinations is shown to enumerate every subset once, then the derivative of a product over a Finset; includes the case of a point on a node.
  * status: proved; Props/{Lagrange}: `c18_derivs_non_uniform`, `c18_derivs_uniform`.
  * All derivative orders up to the degree; includes termination and completeness of the loop over combinations.
* **C19 Lagrange evaluator picks a valid stencil around the point** - Integer arithmetic on stencils + dichotomy.
  * status: proved; Props/{LagrangeEvaluator}: `c19_closest_uniform`, `c19_closest_non_uniform`, `c19_stencil_non_periodic`, `c19_stencil_periodic`, `c19_builder`, `c19_builder_small_grid_counterexample`, `c19_uniform_non_periodic`, `c19_non_uniform_non_periodic`, `c19_uniform_periodic`, `c19_non_uniform_periodic`.
  * Exact arithmetic. The periodic builder needs one more point than the size check of the basis requires: counterexample.
* **C20 Block (corner) matrix solve solves the system** - Block matrices over a field; inner solves are hypotheses `Q *ᵥ solve b = b`.
  * status: proved; Props/{MatrixCorner}: `c20_corner_solve`, `c20_solve_multiple`.
  * Block solves are modelled by a contract (the inner LAPACK solver returns the solution of its system).
* **C21 Periodic banded matrices store and solve the periodic banded matrix** - Index map of compressed corner block; injectivity, get/set laws; solve through C20.
  * status: proved; Props/{MatrixFactory}: `c21_periodic_storage`, `c21_periodic_solve`.
* **C22 Centre block matrices are corner block matrices up to a permutation** - Permutation model.
  * status: proved; Props/{MatrixFactory}: `c22_centre_storage`, `c22_centre_solve`, `c22_overlap`, `c22_solve_multiple_overrun`.
  * Includes two defects: memcpy on overlapping ranges when the top block is larger than the centre, and the out-of-range access of the batched solve.
* **C23 Tridiagonal batch solver solves every system of the batch** - Thomas algorithm as recursion over rows; induction.
  * status: proved; Props/{Tridiag}: `c23_solve`, `c23_strictly_dominant`, `c23_weakly_dominant`, `c23_symmetric_check_accepts_unsymmetric`, `c23_symmetric_check_rejects_symmetric`.
  * Exact arithmetic. The symmetric-positive-definite check is shown wrong in both directions.
* **C24 Banded, dense and symmetric storage behave as matrices** - Index maps; injectivity.
  * status: proved; Props/{MatrixStorage}: `c24_dense_get_set`, `c24_dense_in_bounds`, `c24_banded_get_set`, `c24_banded_zero`, `c24_banded_layout`, `c24_pds_symmetric`, `c24_pds_get_set`, `c24_pds_zero`.
* **C25 COO to CSR conversion preserves the matrix of every batch** - Lists of triplets; counting sort; disproof for batches > 0 when unsorted, proof when sorted.
  * status: proved; Props/{Csr}: `c25_first_batch`, `c25_row_pointers`, `c25_sorted`, `c25_unsorted_counterexample`, `c25_setup_sort_only_first`, `c25_setup_sort_counterexample`.
  * True for the first batch and for row-sorted input; refuted (with witnesses) otherwise.
* **C26 Matrix factories choose a representation able to hold the requested matrix** - Case analysis.
  * status: proved; Props/{MatrixFactory}: `c26_make_banded`, `c26_make_periodic`, `c26_make_block`, `c26_make_corner`, `c26_doc_pattern_dropped`.
* **C27 Integer and small-matrix helpers** - Direct, induction.
  * status: proved; Props/{MathTools}: `c27_sum`, `c27_sum_range`, `c27_ipow_nat`, `c27_ipow_int`, `c27_factorial_mod`, `c27_factorial`, `c27_factorial_overflow`, `c27_modulo`, `c27_neg_1_pow`, `c27_neg_1_pow_negative_odd`, `c27_det2`, `c27_det3`, `c27_inv2`, `c27_inv3`.
  * modulo: for 32-bit x with the quotient rounded to double. neg_1_pow is wrong for negative odd exponents.
* **C28 Central finite differences are exact on quadratics** - field_simp.
  * status: proved; Props/{Fdm}: `c28_exact_on_quadratics`, `c28_linear`, `c28_periodic`, `c28_periodic_shift`, `c28_boundary_front`, `c28_boundary_back`, `c28_boundary_interior`, `c28_boundary_constant`.
  * Exact arithmetic.
* **C29 Discrete norms are norms** - Finset inequalities.
  * status: proved; Props/{Norms}: `c29_norm_inf_le_iff`, `c29_norm_inf_nonneg`, `c29_norm_inf_bounds`, `c29_norm_inf_attained`, `c29_norm_inf_smul`, `c29_norm_inf_add`, `c29_norm_inf_schedule`, `c29_error_norm_inf`, `c29_norm_inf_vector`, `c29_norm_L1`, `c29_norm_L1_seminorm`, `c29_norm_L1_definite`, `c29_norm_L2`, `c29_norm_L2_seminorm`, `c29_error_norms`.
  * Exact arithmetic; for every reduction order.
* **C30 Circular mapping and its inverse are mutually inverse** - Real trigonometry (`Complex.arg`).
  * status: proved; Props/{CircularMapping}: `c30_cart_circ_cart`, `c30_circ_cart_circ`, `c30_range`, `c30_o_point`.
  * Real arithmetic.
* **C31 Jacobians are the derivatives of the mappings** - `HasDerivAt` for each entry.
  * status: proved; Props/{CircularMapping, CzarnyMapping}: `c31_circ_jacobian`, `c31_circ_det`, `c31_circ_components`, `c31_circ_inverse`, `c31_cart_to_circ_matrix`, `c31_cart_to_circ_det`, `c31_cart_to_circ_jacobian`, `c31_czarny_jacobian`, `c31_czarny_det`, `c31_czarny_inverse`.
  * Real arithmetic; entries are the partial derivatives (HasDerivAt).
* **C32 Czarny mapping and its inverse are mutually inverse** - Real algebra with sqrt.
  * status: proved; Props/{CzarnyMapping}: `c32_o_point`, `c32_czarny_cart_czarny`, `c32_unit_disk`, `c32_cart_czarny_cart`, `c32_range`.
  * Real arithmetic.
* **C33 Barycentric and linear coordinate changes are bijections** - field_simp.
  * status: proved; Props/{CoordTransforms}: `c33_cart_bary_cart`, `c33_sum_one`, `c33_bary_cart_bary`, `c33_corners`, `c33_inside`, `c33_linear`, `c33_linear_inverse_jacobian`, `c33_linear_deriv`.
  * Exact arithmetic.
* **C34 Toroidal and cylindrical mappings compose** - Real algebra; matrix products.
  * status: proved; Props/{CombinedMapping, CoordTransforms}: `c34_toroidal_jacobian`, `c34_toroidal_matrix`, `c34_cylindrical_jacobian`, `c34_cylindrical_matrix`, `c34_cart_cyl_cart`, `c34_cyl_cart_cyl`, `c34_cart_cyl_jacobian`, `c34_component_never_compiles`, `c34_combined_jacobian`, `c34_combined_jacobian_intermediate`, `c34_combined_inverse`, `c34_o_point_interpolation`, `c34_o_point_circular`, `c34_o_point_czarny`, `c34_pseudo_cartesian_czarny`, `c34_pseudo_cartesian_object`, `c34_circular_identity`.
  * Real arithmetic. The static assertions of CartesianToCylindrical::jacobian_component contradict each other: shown.
* **C35 Metric tensors and vector transfers are consistent** - Matrix algebra with Mathlib `Matrix`.
  * status: proved; Props/{VectorMapper}: `c35_metric_symmetric`, `c35_metric_pos_def`, `c35_metric_inverse`, `c35_conversion_compose`, `c35_conversion_meaning`, `c35_scalar_product`, `c35_copy_to_vector_space`, `c35_inverse_jacobian`.
  * Exact arithmetic.
* **C36 Tensor indexing is a bijection with storage** - Mixed radix encode/decode.
  * status: proved; Props/{TensorIndex}: `c36_position_to_element`, `c36_element_to_position`, `c36_injective`, `c36_get_set`, `c36_arithmetic`, `c36_eq`, `c36_assign_elements`, `c36_identity`.
* **C37 tensor_mul is Einstein summation** - Sum over assignments of unique indices.
  * status: proved; Props/{TensorMul}: `c37_tensor_mul`, `c37_accepted_iff`, `c37_cartesian_trace_rejected`, `c37_curvilinear_trace_accepted`, `c37_rejects`.
  * For every list of indexed tensors that satisfies the library's static assertions. The trace of a Cartesian tensor is rejected although it is a valid expression: shown.
* **C38 Levi-Civita parity is the sign of the permutation** - Recursion on lists vs `Equiv.Perm.sign`.
  * status: proved; Props/{TensorIndex, TypeSeq}: `c38_defined`, `c38_duplicate`, `c38_sign`, `c38_swap`, `c38_foreign_index`, `c38_levi_civita`.
* **C39 Inter-species collisions exchange momentum and energy without creating any** - ring/field_simp.
  * status: proved; Props/{CollisionsInter}: `c39_momentum_cancels`, `c39_energy_cancels`, `c39_equilibrium`, `c39_heat_flows_to_colder`, `c39_friction_dissipates`, `c39_reciprocity`, `c39_species_symmetry`, `c39_maxwellian_moments`, `c39_source_moments`, `c39_total_conservation`, `c39_discrete_moments`, `c39_equilibrium_step`, `c39_find_ion`, `c39_ctor`.
  * Real arithmetic; the moments of the source are integrals over the whole velocity line (the truncated grid and its quadrature only approximate them).
* **C40 Constant Krook source relaxes towards its target** - Real.exp laws.
  * status: proved; Props/{Krook}: `c40_target_fixed`, `c40_semigroup`, `c40_exact_solution`, `c40_contraction`, `c40_converges`.
  * Real arithmetic.
* **C41 Adaptive Krook source conserves the local charge** - Refuted by a concrete state; the exact condition for conservation is proved.
  * status: proved; Props/{Krook}: `c41_derivative_conserves`, `c41_conservation_iff`, `c41_charge_not_conserved`, `c41_ion_density`.
  * The documented claim is refuted; the exact condition is proved.
* **C42 Masks are between zero and one and normalise to one** - tanh monotone.
  * status: proved; Props/{MaskSource}: `c42_error_iff`, `c42_bounds`, `c42_complementary`, `c42_symmetric`, `c42_increasing`, `c42_normalised`, `c42_norm_positive`, `c42_half_extent_degenerate`, `c42_zero_extent`.
  * Real arithmetic.
* **C43 Intra-species collision step solves the Crank-Nicolson system** - Algebra of coefficients.
  * status: proved; Props/{CollisionsIntra}: `c43_row`, `c43_crank_nicolson`, `c43_pivots`, `c43_positive`, `c43_negative`, `c43_mass_balance`, `c43_staggered_midpoints`, `c43_ghosted`, `c43_uniform_agrees`, `c43_operator`, `c43_rates_exist`.
  * Real arithmetic; solvability (non-zero pivots) is a hypothesis of the step theorems, proved on uniform grids under a Peclet condition.
* **C44 Charge density accounts for every species** - Sums; disproofs for the adiabatic species branch and the parallel sum.
  * status: proved; Props/{Moments}: `c44_xyvxvy`, `c44_xvx_kinetic`, `c44_xvx_iff`, `c44_mpi_value`, `c44_mpi_iff`.
  * Two defects are characterised exactly.
* **C45 Operator splitting is symmetric and consistent** - Composition of abstract operators; traces.
  * status: proved; Props/{Splitting}: `c45_xvx_total_time`, `c45_xyvxvy_total_time`, `c45_xvx_reversible`, `c45_xyvxvy_reversible`, `c45_rhs_total_time`, `c45_rhs_reversible_one`, `c45_rhs_not_reversible`, `c45_documented_reversible`, `c45_rhs_documented_comm`, `c45_xvx_second_order`, `c45_xyvxvy_second_order`, `c45_mpi_eq_serial`, `c45_transpose_roundtrip`.
  * The right-hand-side splitting is refuted as a symmetric splitting: its second pass runs in the same order although the documentation says reversed.
* **C46 Time loops output consistent states and can be restarted** - Loop as iteration with event log; induction; disproofs for the three deviating loops.
  * status: proved; Props/{TimeLoops}: `c46_xvx`, `c46_xvx_event`, `c46_xvx_count`, `c46_xvx_restart`, `c46_xvx_restart_events`, `c46_xyvxvy`, `c46_xyvxvy_restart`, `c46_xy`, `c46_xy_restart`, `c46_polar_rk2`, `c46_polar_rk2_time_wrong`, `c46_polar_rk2_duplicate_time`, `c46_polar_rk2_restart`, `c46_explicit`, `c46_explicit_restart`, `c46_implicit_host`, `c46_implicit_device_stale`, `c46_implicit_device_events`, `c46_implicit_restart`.
  * Holds for all loops except: the polar RK2 loop reports a wrong time, and the implicit polar loop outputs a stale density on devices; both shown.
* **C47 What the second-order polar predictor-correctors compute** - Abstract operators; distinguishing counterexample.
  * status: proved; Props/{TimeLoops}: `c47_explicit_actual`, `c47_explicit_stationary`, `c47_explicit_not_documented`, `c47_documented_second_order`, `c47_explicit_only_first_order`, `c47_implicit_loop`, `c47_implicit_loop_code`, `c47_sqDiff_bound`, `c47_implicit_actual`, `c47_implicit_predictor_not_documented`.
  * The documented schemes are refuted; what the code computes is proved.
* **C48 Species initialisation appends exactly the missing adiabatic species** - List model.
  * status: proved; Props/{Species}: `c48_ielec`, `c48_init`, `c48_init_species`, `c48_at_most_one`, `c48_kinetic_electron_mass`, `c48_adiabatic_electron_mass`, `c48_kinetic`.
  * With adiabatic electrons the electron mass lookup is out of range: shown.
* **C49 Periodic coordinates are brought back to the index range** - Floor/while loops over ℝ; acos/cos branch.
  * status: proved; Props/{GridTools}: `c49_restrict`, `c49_unique`, `c49_inside`, `c49_periodic`, `c49_bspline`, `c49_bspline_non_periodic`, `c49_length_uniform`, `c49_length`, `c49_max_distance`.
  * Real arithmetic.
* **C50 Break points are increasing with the requested ends** - Ordered field inequalities.
  * status: proved; Props/{GridTools}: `c50_uniform`, `c50_uniform_increasing`, `c50_random`, `c50_random_default_not_increasing`, `c50_random_default`.
  * Real arithmetic; with the default non-uniformity two neighbouring break points can coincide.
* **C51 User supplied interpolation points are accepted only if the spline problem is not overconstrained** - Loop over points; soundness proved, completeness under non-empty cells, counterexample otherwise; a refusal means more points in a cell than the dimension of the polynomials there, so the spline problem (C116) is singular.
  * status: proved; Props/{GridTools, SplineSampling}: `c51_reject_sound`, `c51_accept_complete`, `c51_number`, `c51_non_periodic`, `c51_missed`, `c51_uniform`, `c51_refused_singular`, `c51_well_posed_accepted`, `c51_greville_accepted`, `c51_accepted_singular`.
  * An overconstrained set that the check misses is exhibited.
* **C52 1D finite element Poisson solver returns the Galerkin solution** - Assembly as sum over quadrature points; linear solve as hypothesis.
  * status: proved; Props/{Fem}: `c52_periodic_entries`, `c52_stiffness`, `c52_rhs`, `c52_periodic_nonsingular`, `c52_periodic`, `c52_periodic_unique`, `c52_stiffness_dirichlet`, `c52_dirichlet_positive`, `c52_symmetric`, `c52_dirichlet`, `c52_dirichlet_unique`, `c52_dirichlet_energy`, `c52_dirichlet_best`, `c52_periodic_best`, `c52_dirichlet_stable`, `c52_written_dirichlet`, `c52_written_periodic`.
  * The linear solver and the B-splines are parameters; the hypotheses on the spline space are shown satisfiable by hat functions. Real arithmetic.
* **C53 FFT Poisson solver inverts the Laplacian mode by mode** - Exact DFT over Finset sums on the complex field; orthogonality of roots of unity; every number of dimensions of the code (1D, 2D).
  * status: proved; Props/{Fft, FftEnergy}: `c53_laplace_pos`, `c53_round_trip`, `c53_poisson`, `c53_zero_mean`, `c53_linear`, `c53_cosine`, `c53_sine`, `c53_symmetric`, `c53_energy_pos`, `c53_energy`, `c53_stable`, `c53_nyquist`.
  * Exact discrete Fourier transforms on real arithmetic. The field component along a non-last dimension with an even number of points is wrong at the Nyquist mode: shown.
* **C54 Semi-Lagrangian advection by a constant is exact translation** - Interpolation exactness as hypothesis.
  * status: proved; Props/{Advection}: `c54_stepper_constant`, `c54_stepper_zero`, `c54_constant_field`, `c54_translation`, `c54_transport_equation`, `c54_zero_step`, `c54_zero_field`, `c54_grid_shift`, `c54_constant_function`, `c54_linear`, `c54_maximum_principle`, `c54_two_steps`, `c54_lines_independent`, `c54_linear_field`, `c54_spatial`, `c54_velocity`, `c54_vlasov_translation`, `c54_null`.
  * Builder and evaluator are parameters; what is needed of them is a hypothesis of each theorem. Real arithmetic.
* **C55 Triangular Bernstein basis is a partition of unity** - Multinomial theorem.
  * status: proved; Props/{Bernstein}: `c55_values`, `c55_partition`, `c55_number`, `c55_nbasis`, `c55_nonneg`, `c55_degree_one`, `c55_corner1`, `c55_corner2`, `c55_corner3`, `c55_overflow`.
  * Degrees up to 20, where the 64-bit factorials are exact; fails for degree 21: shown. Real arithmetic.
* **C56 Type sequence utilities** - List functions.
  * status: proved; Props/{TypeSeq}: `c56_unique`, `c56_unique_first`, `c56_has_unique`, `c56_range`, `c56_range_drops_repetitions`, `c56_range_reversed`, `c56_cat`, `c56_duplicate`, `c56_find_grid`, `c56_find_all_grids`, `c56_get_first_defect`, `c56_get_first_head`, `c56_insert`, `c56_insert_before`, `c56_insert_mpi_tags`, `c56_adjacent`.
  * get_first_t is refuted for lists whose head does not satisfy the condition.
* **C57 Fluid moments are consistent** - Finset sums.
  * status: proved; Props/{Moments}: `c57_overloads_agree`, `c57_raw_moments`, `c57_scaling`, `c57_galilean`, `c57_temperature_nonneg`, `c57_velocity_bounds`, `c57_collision_moments_agree`.
* **C58 Gyroaverage is linear and preserves constants** - Finset sums.
  * status: proved; Props/{GyroAccuracy, Gyroaverage}: `c58_value`, `c58_last_line`, `c58_linear`, `c58_constant`, `c58_bounds`, `c58_zero_radius`, `c58_last_line_wrong`, `c58_affine`, `c58_polynomial`, `c58_accuracy`, `c58_smooth`, `c58_quadratic`, `c58_batches`.
  * Linear and preserves constants; but the last poloidal line is overwritten by the first one, which is wrong on a periodic grid (which does not hold its end point): shown. Builder, evaluator and mapping are parameters.
* **C59 Command line parsing starts from the requested iteration or fails** - Decision tree over argument lists.
  * status: proved; Props/{Input}: `c59_extension`, `c59_returns`, `c59_dumps`, `c59_fails`, `c59_overload`, `c59_iteration`, `c59_negative_accepted`, `c59_not_a_number`.
  * A restart iteration that is negative or not a number is accepted silently: shown.
* **C60 Initial distributions stay positive** - max.
  * status: proved; Props/{InitialPerturb}: `c60_floor`, `c60_floor_2d`, `c60_floor_no_perturb`, `c60_small_amplitude`, `c60_periodic`, `c60_mass`, `c60_mass_unresolved`, `c60_2d_bound`, `c60_kelvin_helmholtz`.
  * Real arithmetic.
* **C63 Collision coefficients conserve momentum and energy** - erf defined by its integral; monotonicity by derivatives; conservation as an algebraic identity of the discrete moments.
  * status: proved; Props/{CollisionCoeffs}: `c63_conservation`, `c63_unique`, `c63_derivative`, `c63_derivative_at_rest`, `c63_positive`, `c63_decreasing`, `c63_monotone`, `c63_limit`, `c63_at_rest`, `c63_operator_conserves`, `c63_coefficients`.
  * erf is defined by its integral; exp and sqrt are the real functions.
* **C64 Kinetic source injects exactly the requested density and energy** - Finset sums over the velocity grid and additivity in time.
  * status: proved; Props/{MaskSource}: `c64_shape_moments`, `c64_maxwellian`, `c64_additive`, `c64_total_density`.
* **C61 Conforming index slices list exactly the shared points of an interface** - List model of the slices; gcd arithmetic on uniform edges, sorted merge on non-uniform edges; witnesses for the refuted cases.
  * status: proved; Props/{MatchSlice}: `c61_uniform`, `c61_single_points`, `c61_periodic_counterexample`, `c61_step`, `c61_non_uniform`, `c61_reversed_counterexample`.
  * Holds for non-periodic uniform edges and for non-uniform edges of the same orientation; refuted for periodic uniform edges and for non-uniform edges of opposite orientation, with witnesses.
* **C62 Independent coordinate transforms combine into a block transform** - Permutation of tags as block matrices; determinant up to the sign of the rearrangement; witness for the wrong sign.
  * status: proved; Props/{OrthoTransforms}: `c62_jacobian_matrix`, `c62_jacobian`, `c62_jacobian_aligned`, `c62_jacobian_wrong_sign`, `c62_jacobian_wrong_sign_witness`, `c62_apply`, `c62_apply_part`, `c62_component_cartesian`, `c62_component_curvilinear`, `c62_inverse`, `c62_identity_apply`, `c62_identity_matrix`, `c62_identity_transform`.
  * The determinant claim is refuted when the argument tags are an odd rearrangement of the tags of the transforms; jacobian_component does not compile for curvilinear arguments.
* **C65 Equilibria have the density, velocity and temperature of the input file** - Gaussian integrals of Mathlib; refutation for mass different from 1.
  * status: proved; Props/{Equilibria}: `c65_maxwellian`, `c65_bump_eq`, `c65_bump`, `c65_maxwellian_2d`, `c65_vpar_mu`, `c65_vpar_mu_temperature`, `c65_vpar_mu_density_iff`.
  * Integrals over the whole velocity space. Refuted for the (vpar, mu) Maxwellian unless the mass is 1.
* **C66 Diocotron growth rate solves the documented dispersion relation** - Quadratic polynomial of the dispersion relation over the complex numbers; exact difference with the documented relation.
  * status: proved; Props/{Diocotron}: `c66_root`, `c66_no_inner_wall`, `c66_discrepancy`, `c66_inner_wall_wrong`, `c66_density`.
  * The documented dispersion relation is solved only without inner wall; the exact discrepancy is proved.
* **C67 Vortex merger equilibrium iteration ends with a normalised solution** - Maximum of a list, iteration of an abstract linear solver.
  * status: proved; Props/{VortexMerger}: `c67_norm_is_max`, `c67_normalised`, `c67_step`, `c67_find_equilibrium`, `c67_density`, `c67_init`.
  * The Poisson solver is a parameter, assumed linear with a maximum principle.
* **C68 Polar advection follows the characteristics and is single valued at the O-point** - Foot finder and polar BSL as functions of abstract builder, evaluator and mapping; algebra plus `mod 2 pi` arithmetic.
  * status: proved; Props/{AdvectionPolar}: `c68_update`, `c68_velocity`, `c68_update_exact`, `c68_update_theta`, `c68_constant_velocity`, `c68_unified`, `c68_single_valued`, `c68_feet_theta`, `c68_translation`, `c68_euler`, `c68_rk2`, `c68_zero_step_feet`, `c68_zero_step`, `c68_zero_step_centre`, `c68_constant_function`, `c68_batches_independent`, `c68_average`, `c68_average_constant`, `c68_centre`, `c68_overloads_agree`.
  * Up to the 1e-15 neighbourhood of the centre where the code snaps feet to the O-point. Mapping, builder and evaluator are parameters.
* **C69 Polar B-splines: numbering, evaluation, smoothness at the O-point, integrals** - Index arithmetic by omega; the polar spline is proved equal to a tensor product spline; integrals by interval integrals.
  * status: proved; Props/{PolarSplines}: `c69_index_roundtrip`, `c69_index_roundtrip'`, `c69_index_range`, `c69_eval`, `c69_too_few_cells`, `c69_linear`, `c69_triangle`, `c69_elements_sum`, `c69_partition`, `c69_nonneg`, `c69_continuous`, `c69_smooth`, `c69_reproduces_affine`, `c69_outer`, `c69_periodic`, `c69_evaluate`, `c69_deriv`, `c69_integral_singular`, `c69_integral_tensor`.
  * The 1D B-splines are parameters. With exactly C + 1 radial cells the evaluation reads out of range: shown. Real arithmetic.
* **C70 Gradient, curl and Lie-Poisson bracket are coordinate-free** - HasFDerivAt of the mapping; curl and bracket by the chain rule; determinants by ring.
  * status: proved; Props/{DiffOps}: `c70_norm`, `c70_gradient`, `c70_gradient_field`, `c70_bracket`, `c70_bracket_fields`, `c70_bracket_algebra`, `c70_bracket_direction`, `c70_bracket_vector`, `c70_curl`, `c70_curl_grad`, `c70_cartesian_argument`, `c70_cartesian_argument_wrong`.
  * Exact arithmetic; tensor_mul as Einstein sum (C36). Finding: Cartesian-tagged logical dimensions scale eps by J instead of 1/J.
* **C71 Shared 2D spline coefficients belong to the field being differentiated** - State machine of the cache; induction over call histories.
  * status: proved; Props/{SplineCache}: `c71_cache_contents`, `c71_protocol`, `c71_stale`, `c71_stale_wrong`, `c71_instances_share`, `c71_gradients`, `c71_opposite_orders`.
  * Builder and evaluator arbitrary. Finding: stale coefficients outside the documented call order.
* **C72 Interface derivatives between two patches are those of the global spline** - Cubic spline conditions as hypotheses (interpolation + C2 matching); the recursion over cells is proved by induction to eliminate the inner derivatives.
  * status: proved; Props/{InterfaceDerivs, InterfaceDerivsUniform}: `c72_non_uniform`, `c72_chosen_cells`, `c72_two_cells`, `c72_one_cell`, `c72_uniform_formula`, `c72_uniform`, `c72_uniform_wrong`.
  * Cubic splines over real arithmetic. Findings: two cells on patch 1 give the coefficients of the previous step, one cell reads out of range, the uniform case swaps the two cell lengths.
* **C73 Lagrange interpolation in several dimensions** - Recursion over the list of dimensions; tensor-product identity by induction; uses C17/C19.
  * status: proved; Props/{NDLagrange}: `c73_tensor`, `c73_reproduce`, `c73_knots`, `c73_polynomials`, `c73_builder`, `c73_builder_one_periodic`, `c73_builder_two_periodic`, `c73_outside_hangs`, `c73_periodic_out_of_range`.
  * Recursive evaluator and builder for any number of dimensions; with two periodic dimensions coefficients are never written, and outside the domain the rules are not applied (proved with witnesses).
* **C74 Polar-spline finite elements solve the weak Poisson-like equation** - The four assembly kernels as lists of writes; injectivity, cover and order of slots proved for all sizes; values as sums over cells; the weak form as a consequence.
  * status: proved; Props/{PolarFem, PolarFemCea, PolarFemSolve}: `c74_structure`, `c74_writes`, `c74_values`, `c74_product`, `c74_rhs`, `c74_solution`, `c74_symmetric_psd`, `c74_definite`, `c74_exists_unique`, `c74_energy`, `c74_best`, `c74_reproduces`, `c74_singular`, `c74_too_few_cells`, `c74_overrun`.
  * Real arithmetic; the linear solver itself (Ginkgo) is not modelled: c74_solution is about any x that solves the assembled system. Findings: 2p+1 poloidal cells leave the tensor-tensor columns unwritten, fewer overrun the allocation.
* **C75 Guiding-centre advection field is the drift of the potential** - HasFDerivAt; explicit inverse of the Jacobian; limits at the O-point for circular and discrete mappings.
  * status: proved; Props/{GuidingCentre}: `c75_physical`, `c75_flux`, `c75_logical`, `c75_linearised`, `c75_o_point`, `c75_discrete`.
  * Real arithmetic; the spline of the potential is any function whose derivatives the evaluator returns.
* **C76 Multipatch spline evaluation on an onion geometry** - Locator as in C08; splines as finite sums over abstract bases; continuity by pasting closed sets.
  * status: proved; Props/{MultipatchSpline}: `c76_patch`, `c76_value`, `c76_deriv`, `c76_deriv_outside`, `c76_null`, `c76_constant`, `c76_continuous`, `c76_fields`, `c76_integral`, `c76_norm`, `c76_error_norm`, `c76_constant_other_domain`.
  * Real arithmetic; DDC bases are any functions meeting IsBasis. Finding: the extrapolation rule gets an angle wrapped into the poloidal domain of the first patch.
* **C77 A field with derivatives is a faithful memory** - Index encoding over any list of dimensions; injective/surjective layout; ownership as a multiset of frees.
  * status: proved; Props/{DerivField}: `c77_access`, `c77_injective`, `c77_surjective`, `c77_write_read`, `c77_slice`, `c77_slice_position_needed`, `c77_ranges`, `c77_ranges_only`, `c77_view`, `c77_lifetime`, `c77_move_assign`.
  * Any number and order of dimensions. get_mdspan is not modelled. Findings: defaulted move assignment frees twice; slices of derivatives without the position read the wrong point (the README warns about that one).
* **C78 Values and derivatives reach the Hermite spline builder in the right arguments** - Uses the storage model of C77; case analysis on orders and edges.
  * status: proved; Props/{SplineBuilderDeriv}: `c78_arguments`, `c78_boundary_field`, `c78_orders`, `c78_unchecked`.
  * The DDC builder itself is not modelled: the theorems are about the arguments it receives. Finding: the announced check of the number of derivatives is not implemented.
* **C79 Batched sparse matrices and their iterative solves** - Address arithmetic (mixed radix), reductions as arbitrary trees of chunks, solver as an arbitrary function; the mismatch of tolerances by scaling.
  * status: proved; Props/{BatchSparse}: `c79_storage`, `c79_assert_off_by_one`, `c79_constructor`, `c79_constructor_strides`, `c79_ell_norm`, `c79_csr_norm`, `c79_norm_bound`, `c79_batched_solve`, `c79_loop_solve`, `c79_relative_small`, `c79_relative_mismatch`, `c79_relative_accepts`.
  * Ginkgo is a parameter (any function giving solutions and logged residuals). Findings: assertion off by one, strides ignored, relative tolerance checked as an absolute one.
* **C80 Simulations make the right steps, write the right files and restart exactly** - Directory as a function; induction over the events; restart by iterating the step function; floor inequalities for the numbers of steps.
  * status: proved; Props/{Drivers}: `c80_interval`, `c80_coll_interval`, `c80_xvx_files`, `c80_xyvxvy_files`, `c80_xvx_restart`, `c80_xvx_restart_missing`, `c80_zero_interval`, `c80_last_saved`, `c80_interval_rounding`, `c80_xy_files`, `c80_polar_files`, `c80_guiding_centre_steps`, `c80_polar_steps`, `c80_polar_loss`, `c80_coll_files`.
  * Numerical operators are parameters; the directory is a function from file numbers to contents. Findings: zero output interval, truncation after rounding, polar simulations stop early.
* **C81 The guiding-centre simulations start from the documented data and solve the documented equation** - Data flow of the main programs with arbitrary content for uninitialised memory; equation by linearity of the weak form of C74.
  * status: proved; Props/{PolarDrivers}: `c81_diocotron`, `c81_vortex_perturbation_lost`, `c81_vortex_independent`, `c81_vortex_phi_eq`, `c81_equation`, `c81_guiding_centre`.
  * Findings: vortex merger perturbation lost (deepcopy with the wrong destination), potential of uninitialised memory saved, sign of the Poisson equation.
* **C82 The collision operator receives the data of the simulation, in its layout, and its handle is released once** - Layout-right addresses by mixed radix; parallel loop as an arbitrary order of writes; handles as a state machine over construct/copy/destroy.
  * status: proved; Props/{CollisionInterface}: `c82_pow2`, `c82_spoofed_layout`, `c82_replicate`, `c82_arguments`, `c82_vparMu`, `c82_distribution`, `c82_accepted`, `c82_mu_unchecked`, `c82_released_once`, `c82_all_released`, `c82_copy_releases_twice`.
  * koliop itself is external and not modelled. Findings: mu uniformity unchecked, double release after a copy.
* **C83 Vector fields give each tag its own component and share or copy memory as documented** - Model/VectorFields: memory as buffers and offsets, fields as strided boxes, vector fields as lists of fields with a list of tags. Injectivity of the layout by induction over the dimensions (mixed radix), copies by induction over the list of positions with a frame condition.
  * status: proved; Props/{VectorFields}: `c83_mem`, `c83_get_read`, `c83_pointers`, `c83_span`, `c83_slice_idx`, `c83_slice_range`, `c83_slice_slice`, `c83_assign`, `c83_deepcopy`, `c83_deepcopy_refused`, `c83_mirror`, `c83_unchecked_ranges`, `c83_alias`, `inj_layoutRight`, `inj_sliceIdx`.
  * Two findings: fields with different index ranges are accepted (idx_range() looks at the first component only, the extents assertion of deepcopy too) and one pointer for two components is accepted.
* **C84 Multipatch containers keep one element per patch and copy patch by patch** - Model/MultipatchData: tuples as lists of (type, value), std::get by type as a filter, pack expansions as recursion over the patches; memory from Model/VectorFields. Induction over the patches.
  * status: proved; Props/{MultipatchData}: `c84_get`, `c84_get_iff`, `c84_shared_type`, `c84_reorder`, `c84_reorder_accepted`, `c84_convert`, `c84_map`, `c84_field_mem`, `c84_owning_constructor`, `c84_deepcopy`.
  * Findings: std::get by type makes patches with a common element type unreadable; MultipatchFieldMem(label, fields...) calls a base constructor that does not exist.
* **C85 Multipatch spline builders use the outer condition outside and the transition condition inside** - Model/MultipatchData over Model/Connectivity (equivalent_edge_t); case analysis on the unique interface of the edge, induction over the patches.
  * status: proved; Props/{MultipatchData}: `c85_edge_bc`, `c85_missing_edge`, `c85_builder`, `c85_builder_2d`, `c85_build`, `c85_same_builder_type`, `c85_collection`.
  * Finding: builders are looked up by type, so two patches with the same basis, grid and conditions cannot be used together.
* **C86 Interpolators return their data inside the domain and the chosen rule outside** - Rule objects and static assertions modelled as data; composition with the Lagrange evaluator of C19 (reproduction, locality) and case analysis.
  * status: proved; Props/{Interpolators}: `c86_lagrange_accepted`, `c86_lagrange_uniform`, `c86_lagrange_non_uniform`, `c86_clamp`, `c86_lagrange_periodic`, `c86_spline_accepted`, `c86_spline_rules`, `c86_spline_periodic`, `c86_spline_continuous`, `c86_null_jump`.
  * DDC's spline builder and evaluator are outside the repository: the spline inside the domain is an arbitrary function.
* **C87 Quasi-neutrality solvers return the field of the total charge** - Shift invariance of the Fourier coefficients other than the mean and of the constrained finite element system (through uniqueness, C52), composed with the charge density values of C44.
  * status: proved; Props/{QnSolver}: `c87_fft_background`, `c87_fft_xvx`, `c87_fft_xyvxvy`, `c87_fft_mpi`, `c87_fft_uniform`, `c87_fem_background`, `c87_fem_periodic_xvx`, `c87_fem_dirichlet_xvx_iff`, `c87_null`, `c87_assert`.
  * Builds on C44, C52, C53. The spline of the density in the finite element solver is assumed to add constants (partition of unity).
* **C88 A partial derivative object differentiates the field it was made from** - A state machine with operations write, make and apply over named fields; the objects keep snapshots; induction over the history.
  * status: proved; Props/{PartialDerivs}: `c88_snapshot`, `c88_make_pure`, `c88_quadratic`, `c88_in_place`, `c88_gradient`, `c88_gradient_alias_witness`, `c88_rhs_view`.
  * One line of the batch; DDC's spline builder and evaluator are arbitrary functions. Finding: a gradient whose result contains the field itself is wrong in the later components.
* **C89 Arrays read through PDI are exactly those of the file** - A store of PDI with stacks of references; the seven loops of the function as a sequence of outcomes (ok, error, undefined behaviour); one invariant lemma per loop.
  * status: proved; Props/{Pdi}: `c89_read`, `c89_arguments`, `c89_trailing_argument`, `c89_same_vector`, `c89_species`.
  * PDI and decl_hdf5 are external: their documented behaviour (stacks of shared references, metadata kept at reclaim, arrays sized by $<name>_extents) is the model. Three findings.
* **C90 A file written in parallel equals the one a single process would write** - Composition of the partition theorem C01 with a model of hyperslab writes; induction over the list of writing processes.
  * status: proved; Props/{Pdi}: `c90_file`, `c90_front_needed`, `c90_vector_field`, `c90_mesh`.
  * HDF5 hyperslab selections are modelled at the level of multi-indices with row-major buffers. Uses C01.
* **C91 Splines and grids are initialised once, in order, from the data of the mesh** - The two compile-time branches as booleans over an error monad; case analysis; reading by C89.
  * status: proved; Props/{MeshInit}: `c91_uniform`, `c91_non_uniform`, `c91_uniform_user`, `c91_non_uniform_user`, `c91_once`, `c91_missing`, `c91_pseudo_uniform`, `c91_mesh_file`, `c91_grid_name`, `c91_negative_cells`.
  * Uses C89 for the reading and C50 for the break points; DDC's initialisation of discrete spaces is modelled as write-once.
* **C92 A printed view determines the view** - Unique readability by induction over the rank and the number of rows.
  * status: proved; Props/{ViewStream}: `c92_defined`, `c92_empty`, `c92_faithful`, `c92_line`.
  * The output is a list of characters; the printing of one element is a parameter.
* **C93 Order of convergence of the time steppers for nonlinear equations** - The models of C05-C07 (Verif/Model/Timestepper.lean) are expanded in powers of h, uniformly in the starting time (Verif/Props/Taylor.lean: Taylor remainder on a compact set; RkExpansion.lean: composition of expansions; RkOrder.lean: exact solution by bootstrapping, stages, stability, discrete Gronwall; CnOrder.lean: Crank-Nicolson).
  * status: proved; Props/{CnOrder, RkOrder}: `c93_euler`, `c93_rk2`, `c93_rk3`, `c93_rk4`, `c93_crank_nicolson`, `c93_cn_small_steps_are_euler`, `c93_cn_not_second_order`.
  * Local and global error bounds for arbitrary nonlinear f on arbitrary normed spaces; f need not be globally Lipschitz. Exact real arithmetic.
* **C94 Symmetries, conservation and equilibria of the periodic Vlasov-Poisson programs** - Model/Simulation.lean composes the models of the advections, the splitting, the charge density, the FFT solver and the time loops as the programs do. Props/LagrangeShift.lean gives the periodic evaluator in closed form, Props/Simulation.lean derives shift invariance and the conservation of sums, Props/SimulationXVx.lean the statements on the whole programs by induction on the steps.
  * status: proved; Props/{Simulation, SimulationXVx}: `c94_fft_translation`, `c94_translation_xvx`, `c94_homogeneous_xvx`, `c94_mass_x`, `c94_free_streaming`, `c94_translation_xyvxvy`, `c94_homogeneous_xyvxvy`, `c94_mass_xy`, `c94_lagrange`, `c94_spline`, `c94_degree_one`.
  * Composition of the models of the operators. The properties of DDC's uniform periodic splines are the hypotheses of UniformPeriodicSpline; the Lagrange interpolator is the model of the code.
* **C95 Order of accuracy on smooth functions** - Interpolation error formula from iterated Rolle (Props/InterpError), Hermite interpolation for Gauss points and Simpson, Taylor bounds for the finite differences; then for the advection a discrete stability proof: averages of neighbours (degree 1), and for the degree 3 the exact identity |Tv|^2 = |v|^2 - a |D^2 v|^2 - b |D^3 v|^2 with a, b >= 0 on a periodic line.
  * status: proved; Props/{AccuracyAdvection, AccuracyGauss, AccuracyLagrange, AccuracyQuad}: `c95_trapezoid`, `c95_simpson`, `c95_simpson_uniform`, `c95_fdm`, `c95_fdm_periodic`, `c95_gauss_legendre`, `c95_lagrange_derivs_non_uniform`, `c95_lagrange_derivs_uniform`, `c95_evaluator_uniform`, `c95_evaluator_non_uniform`, `c95_evaluator_uniform_periodic`, `c95_evaluator_non_uniform_periodic`, `c95_advection_linear`, `c95_advection_cubic_stable`, `c95_advection_cubic`.
  * Exact real arithmetic. The quadratures and differences are those of C14, C15, C16, C28; the bases and evaluators those of C17-C19; the advection that of C94.
* **C96 Parallel loops give the sequential result under every schedule** - Operational semantics: `Prog` is a tree of reads, writes and atomic additions, `Step` executes one access of one iteration, `Outcome` is its reflexive transitive closure. Invariant over the steps (`Inv`): running what remains of each iteration gives what the whole iteration gives alone; accumulators plus what remains to be added is constant. Termination by the well-founded multiset order. Loop by loop: the owned locations are disjoint and the run of one iteration is the body of the serial model.
  * status: proved; Props/{ParallelLoops, ParallelLoopsCode}: `c96_outcome`, `c96_deterministic`, `c96_sequential`, `c96_completes`, `c96_terminates`, `c96_has_outcome`, `c96_copy`, `c96_range`, `c96_trapezoid`, `c96_simpson_centre_left`, `c96_simpson_overlap`, `c96_simpson_fused_race`, `c96_lost_update`, `c96_fem_rhs`, `c96_tridiag`, `c96_collisions`, `c96_transpose`, `c96_unify`, `c96_ring`, `c96_stores`, `c96_team`, `c96_polar_columns`, `c96_polar_values`.
  * Small-step interleaving semantics of parallel loops at the level of single accesses; a general theorem for race-free loops (owned locations, read-only locations, atomically accumulated locations) and its instances for the loops of the code, connected to the functions of the other properties (C04, C13, C14, C23, C32, C39, C63, C74). Simplification: sequentially consistent memory and real numbers.
* **C97 Integrals and norms in floating point, for every schedule of the reduction** - `Fl u x y`: y = x (1 + δ), |δ| ≤ u. Induction over the reduction tree; for non-negative terms two-sided multiplicative bounds.
  * status: proved; Props/{Rounding}: `c97_quadrature`, `c97_quadrature_schedules`, `c97_quadrature_sign`, `c97_norm_L1`, `c97_norm_L2`, `c97_error_norm_inf`, `c97_quadrature_exact`.
  * Relational model of rounding (standard model without under/overflow), reduction trees of C29; exact arithmetic is recovered for u = 0.
* **C98 The batched tridiagonal solver is backward stable in floating point** - Induction shows that |cprim| ≤ 1 survives rounding, so that the divisors cannot vanish; the rounding factors are collected into a perturbed tridiagonal matrix, row by row; products of factors near one; forward error by a discrete maximum principle.
  * status: proved; Props/{RoundingTridiag}: `c98_backward_stable`, `c98_forward_error`, `c98_exact`, `pivots`, `dominant_bound`.
  * Backward error analysis of the code's own variant of Thomas' algorithm; with u = 0 the relation is the solver of C23, and it has a run for every u.
* **C99 Semi-Lagrangian advection with Lagrange interpolation of any degree is stable for every displacement, and converges** - the symbol as a function of the angle has a nonincreasing modulus (derivative identity by induction on the degree); uniqueness of the interpolation polynomial; discrete Fourier transform; Minkowski's inequality and induction on the number of steps
  * status: proved; Props/{AdvectionStability, FloatAdvection, Strang}: `c99_stable`, `c99_stable_line`, `c99_convergence`, `c99_linear_bounds`, `c99_negative`, `symbol`.
  * Strang's theorem, proved for every degree: the Fourier symbol of the centred interpolation is c + i s with c, s truncated hypergeometric series which solve the equations of the cosine and the sine up to one term of known sign; Parseval's identity on the periodic grid.
* **C100 Semi-Lagrangian advection with uniform periodic cubic splines is stable for every displacement and fourth-order accurate** - an exact identity for the sum of squares after a displacement (minus two sums of squares of differences of the coefficients); diagonal dominance of the builder's matrix; a local approximation exact on cubics and Taylor's formula; induction on the number of steps
  * status: proved; Props/{SplineAdvection}: `c100_stable`, `c100_interpolation`, `c100_convergence`, `exists_spline`.
  * DDC's splines enter through their interface only (the four pieces of the cubic B-spline and the interpolation conditions); exists_spline shows that the interface is met on every grid.
* **C101 The whole Vlasov-Poisson programs carry a species without charge along straight lines** - the velocity advection of a neutral species is the identity (interpolation at the points); stability and accuracy of each spatial advection; Minkowski's inequality; induction on the number of steps
  * status: proved; Props/{FreeStreaming}: `c101_xvx_stable`, `c101_xvx_convergence`, `c101_xyvxvy_stable`, `c101_xyvxvy_convergence`, `lagrange_good`, `spline_good`.
  * GoodLine states what the interpolation has to satisfy; lagrange_good (every degree) and spline_good (cubic splines) prove it from C99 and C100.
* **C102 Periodic coordinates in floating-point arithmetic** - rounding relation of Model/Rounding, binary64 rounding defined on the reals and proved to be nearest; error propagation through floor and truncation; invariants of the two loops; exact evaluation of the witnesses
  * status: proved; Props/{FloatWrap}: `c102_ieee_relative`, `c102_ieee_nearest`, `c102_wrap_accuracy`, `c102_wrap_inside`, `c102_uniform_stencil`, `c102_uniform_in_range`, `c102_non_uniform_search`, `c102_wrap_outside_domain`, `c102_non_uniform_hangs`, `c102_restrict_accuracy`, `c102_restrict_ends`, `c102_restrict_outside`.
  * Unbounded exponents: no overflow, underflow or NaN. The trigonometric reduction of restrict_to_idx_range (more than ten periods away) is not in the floating-point model. The coordinates of the knots are computed by ddc: their error is a parameter.
* **C103 Lagrange interpolation computed in floating-point arithmetic** - Model: Model/FloatLagrange.lean (the loops of products and sums with a rounding at each iteration, node detection, evaluator) on top of Model/FloatWrap.lean. Proof: products of rounding factors, forward error of the barycentric formula, Lebesgue bound.
  * status: proved; Props/{FloatLagrange}: `c103_uniform`, `c103_periodic`, `c103_accuracy`, `c103_non_uniform`.
  * Rounding relation Fl u (relative error u for each operation, no overflow or underflow). Knot coordinates are given up to an error tau; the periodic result needs at least two cells.
* **C104 The predictor-corrector time loops are second-order accurate, including the coupling with the self-consistent field** - Expansion of a composition of flows on the product of the state and the field space, in powers of h with remainders uniform near the compact trajectory; the second-order coefficient of a list plus that of its reverse is the exact one, so palindromes are second order; the field of the predictor enters as a perturbation of the second component; a discrete Gronwall argument with the Lipschitz constant of a smooth step gives the global estimate.
  * status: proved; Props/{VlasovOrder}: `c104_xvx`, `c104_xvx_source`, `c104_xvx_documented`, `c104_xyvxvy`, `c104_xy`, `c104_polar`, `c104_xvx_two_sources`, `c104_xvx_two_sources_not_second_order`, `c104_vlasov_poisson`.
  * Time accuracy with exact sub-flows (no interpolation error); the flows are smooth in the norm of the state space, as for discretised operators. Extrapolation at the velocity boundary is not modelled.
* **C105 The Vlasov solvers move the distribution without changing the volume of its level sets** - Each advection is a shear (a shift of one coordinate by a function of the others): Tonelli section by section, translation invariance of Lebesgue's measure, and fundamental domains for the periodic coordinates; induction on the steps.
  * status: proved; Props/{IdealVlasov}: `c105_xvx`, `c105_xvx_integrals`, `c105_xvx_values`, `c105_xyvxvy`, `c105_xyvxvy_integrals`, `c105_xyvxvy_values`.
  * The advection operators of the model are instantiated with an interpolator that makes no error on all of the phase space; there is no velocity boundary. What the interpolation changes is the subject of C33, C94-C103.
* **C106 The MPI simulation: no deadlock, termination, and the serial result under every interleaving** - Invariant over the runs (each process is in the round of the calls it has left; the recorded calls are those of a lockstep execution), a decreasing measure for termination, then composition of C01, C03, C04, C44, C45, C46, C90 along the program.
  * status: proved; Props/{MpiLandau, MpiProgram}: `c106_no_deadlock`, `c106_terminates`, `c106_completes`, `c106_deterministic`, `c106_mismatch_deadlocks`, `c106_spmd`, `c106_counts`, `c106_constructor`, `c106_landau`, `c106_files`, `c106_same_on_any_number`.
  * Operational semantics of processes with collective calls; the program of landau4d_fft is modelled action by action (packing, MPI_Alltoall, unpacking, advections on the local flat arrays, local charge density, MPI_Allreduce, Poisson solver, transposition to the output layout, event, collective write). MPI itself is trusted through its specification (matching of the k-th calls, data delivered). Real arithmetic: MPI_SUM is exact, so the reduction order is irrelevant; in floating point results of different P differ by rounding. The hypothesis nsp = nkin or solver insensitive to a constant charge is needed because the adiabatic charge is counted once per process (C44, C87); the FFT solver satisfies it.
* **C107 Integrals whose quadrature coefficients are computed in floating point** - Relational floating-point model of the loops; products of rounding factors; errors propagated along the reduction tree; combined with the truncation errors of C95.
  * status: proved; Props/{FloatQuad}: `c107_trapezoid_coefficients`, `c107_trapezoid_integral`, `c107_simpson_exact_run`, `c107_simpson_coefficients`, `c107_simpson_integral`.
  * Rounding is a relation (independent relative errors for every operation), as in C97 and C103. The distances are rounded too. Simpson coefficients may cancel (2 dl - dr): hence the bound relative to the magnitudes of the terms.
* **C108 Explicit time steppers in floating point: accumulated rounding errors** - Stage by stage error propagation in real arithmetic, discrete Gronwall inequality, combination with the orders of C93.
  * status: proved; Props/{FloatRk}: `c108_one_step`, `c108_many_steps`, `c108_total_error`, `c108_exact_step`.
  * Maximum norm over the index range. The rounding is a relation; the exact step is one of the possible runs (c108_exact_step). A custom y_update and Crank-Nicolson are not covered.
* **C109 Many steps of the spatial advection in floating-point arithmetic stay close to the exact scheme and to the translated function** - The computed value is the polynomial of a stencil at a point near the middle cell (C102, C103). The basis functions are Lipschitz, the polynomials of neighbouring stencils agree at the common node, so the piecewise polynomial is globally Lipschitz in the position and the computed value is near its value at the exact foot. The exact operator is a contraction in the mean square (C99); induction over the steps.
  * status: proved; Props/{FloatAdvection}: `c109_one_step`, `c109_stable`, `c109_many_steps`, `c109_mass`, `c109_total_error`, `exactStep_piece`, `exactStep_stable`, `disp_err`, `exists_run`, `sizes_binary64`, `stepErr_binary64`.
  * Odd degrees only: for even degrees the piecewise interpolating polynomial is discontinuous in the middle of the cells, so that a rounding error can change a value by the size of the jump (the one-step bound to the polynomial of one of the two neighbouring stencils is C103). Arithmetic: relative error u per operation, no overflow or underflow.
* **C110 Discrete mappings coincide with the analytical mapping on their grid, for as long as their builder lives** - Model/DiscreteMapping.lean: builders as a state machine (world = initialised spaces + live builders); induction over the history of operations.
  * status: proved; Props/{DiscreteMapping}: `fill_interpolates`, `c110_mapping`, `c110_refined_breaks`, `c110_refined_mapping`, `c110_refined_once`, `c110_mixed`, `c110_dangling`, `c110_jacobian`, `c110_singular_points`, `c110_o_point`, `c110_control_points`, `c110_o_point_annulus`, `tensor_contract`, `tensor_edge`.
  * DDC's spline builder and evaluator are parameters with the contract of interpolation at distinct points and exact derivatives (shown satisfiable on every grid by tensor product polynomials). Discrete space initialisation is modelled as a global flag for each instantiation.
* **C111 Polar coordinates computed in floating point** - Both operators with every operation rounded, as relations between arguments and possible results. The round trip is bounded by comparing with the exact polar coordinates of the rounded difference (x, y); binary64 rounding of C102 for the range of the angle and its upper end.
  * status: proved; Props/{FloatPolar}: `c111_round_trip`, `c111_radius`, `c111_radius_recovered`, `c111_angle_range`, `c111_angle_is_period`.
  * Unbounded exponents, no signed zeros; the library functions are modelled by a bound of their relative error.
* **C112 A killed simulation can be continued from the files it left** - The output of a run as a sequence of open/close actions on a disk, a kill as a prefix of it, a history as a list of runs; invariant by induction over the history.
  * status: proved; Props/{Crash}: `c112_every_file_right`, `c112_any_interval`, `c112_damage`, `c112_torn_count`, `c112_between_writes`, `c112_killed_run`, `c112_resume`, `c112_same_as_uninterrupted`, `c112_from_scratch`, `c112_not_killed`, `c112_restart_destroys_its_file`, `c112_all_lost`.
  * Numerical operators are parameters. A file whose write was not finished is torn and cannot be read; the writes of different files are not reordered by the operating system. Real time arithmetic.
* **C113 Finite-difference derivatives in floating-point arithmetic: rounding, data errors and their growth under refinement** - relational floating-point model of each formula; relative error factors through the quotients, absolute errors through the sums; combined with the truncation errors of C95
  * status: proved; Props/{FloatFdm}: `c113_rounding`, `c113_boundary`, `c113_periodic`, `c113_accuracy`, `c113_periodic_accuracy`, `c113_exact_run`, `c113_growth`.
  * Rounding is the relation of C75 (no overflow, no underflow, no NaN); the coordinates, the samples and the length of the period are the doubles stored by the program.
* **C114 The 1D FEM Poisson solver converges, for B-splines of any degree on any break points** - Cox-de Boor pieces as polynomials per cell: partition of unity, linear precision, derivative formula, local independence and continuity by induction on the degree; weak form exactly by cellwise integration by parts; Cea (C52) with the Greville quasi-interpolant as competitor (mean value theorem); nonsingular implies solvable.
  * status: proved; Props/{FemBSpline, FemBSplineExamples, FemConvergence, FemDensity, FemOrder}: `c114_dirichlet_space`, `c114_periodic_space`, `c114_dirichlet_solvable`, `c114_periodic_solvable`, `c114_dirichlet_walls`, `c114_dirichlet_converges`, `c114_dirichlet_potential`, `c114_periodic_converges`, `c114_periodic_problem`, `c114_unclamped_wall`, `c114_dirichlet_order`, `c114_dirichlet_potential_order`, `c114_periodic_order`, `c114_dirichlet_density`, `c114_dirichlet_potential_density`, `c114_periodic_density`.
  * discharges the hypotheses on the basis in C52; the B-splines are DDC's (outside the repository): their Cox-de Boor recursion and knots are stated in Model/BSpline.lean; real arithmetic; the density is taken at the quadrature points as the spline the code evaluates there
* **C115 Spline quadratures integrate the interpolating spline exactly** - Transposition of the system; a primitive of a spline is a spline of one degree more (derivative formula), whose values telescope over the cells; Marsden's identity by induction on the degree for polynomials.
  * status: proved; Props/{SplineInterpAccuracy, SplineQuadrature, SplineQuadratureAccuracy, SplineUnique, SplineWhitney}: `c115_periodic`, `c115_clamped`, `c115_neumann`, `c115_polynomial`, `c115_neumann_polynomial`, `c115_neumann_needs_slope`, `c115_accuracy`, `c115_periodic_accuracy`, `c115_coefficients_exist`, `c115_periodic_coefficients`, `c115_neumann_coefficients`, `c115_periodic_cubic`, `c115_neumann_cubic`, `c115_clamped_coefficients`.
  * builder.quadrature_coefficients() is DDC's and is modelled by the transposed system which the comment of the code describes; the splines are those of Model/BSpline.lean; the comment spline_quadrature.hpp:41 writes the system as q B^T = I_b where q B = I_b is meant (and needed)
* **C116 Spline interpolation is well posed on every mesh (odd degrees at the break points, all degrees at the Greville points), and cubic splines have order 4** - Schoenberg's energy argument: for a spline with zero data, integrating the square of its derivative of order e+1 by parts e times cell by cell leaves only end terms which vanish, so the spline is a polynomial of degree e on every cell, and zero. A square system with a trivial kernel is solvable. For the accuracy, the error of the second derivative is orthogonal to continuous piecewise linear functions, so it is bounded by the interpolation error of the moments (diagonally dominant system), then integrated twice.
  * status: proved; Props/{SplineInterpAccuracy, SplineUnique, SplineWhitney}: `c116_periodic_unique`, `c116_hermite_unique`, `c116_even_degree_singular`, `c116_periodic_accuracy`, `c116_hermite_accuracy`, `c116_periodic_interpolator`, `c116_hermite_interpolator`, `c116_periodic_exists`, `c116_hermite_exists`, `c116_points_unique`, `c116_greville_unique`, `c116_outside_singular`.
  * ddc::SplineBuilder is DDC's and is modelled by the equations which it solves (value at each interpolation point, derivatives at the ends), in real arithmetic; the evaluator with its extrapolation rules is that of Model/Interpolators.lean; the splines are those of Model/BSpline.lean
* **C117 Semi-Lagrangian advection with periodic cubic splines conserves mass, is stable and converges** - A displacement moves every foot to the same relative position of a cell, so the step is the comparison of the sums of a cubic spline at two relative positions. The balance of squares is an exact identity: the loss is u^2/12 times the sum of squared second differences of the coefficients plus u^3/36 times that of the third differences, u = a(1-a). Accuracy of one step from C116, then induction over the steps with the triangle inequality for the root mean square.
  * status: proved; Props/{PeriodicSplineAdvection}: `c117_mass`, `c117_stable`, `c117_converges`, `c117_spatial`, `c117_not_positive`.
  * real arithmetic; ddc::SplineBuilder is modelled by the interpolation problem (Model/SplineInterp.lean), the evaluator by Model/Interpolators.lean, the operators by Model/Advection.lean; the existence of such interpolators is interpolator_exists
* **C118 Two-dimensional spline interpolation is well posed, does not depend on the order of the directions, and is of order 4** - The one-dimensional theorems of C116 are lifted to tensor products: existence and uniqueness by two sweeps, accuracy by the error of the blending of the two one-dimensional interpolations (each derivative of the spline is a fixed combination of the data).
  * status: proved; Props/{SplineInterp2D}: `c118_unique`, `c118_sweeps`, `c118_accuracy`, `c118_poloidal`.
  * ddc::SplineBuilder2D and ddc::SplineEvaluator2D are DDC's and are modelled by the equations which they solve and the sum which they evaluate, in real arithmetic; accuracy is proved for interpolation at the break points (not for Greville points of degree 3 and more)
* **C119 Patch-wise Hermite splines with the interface derivatives of the global spline are the global spline** - uniqueness of the Hermite problem (C116): the polynomials of the global spline on the patch's cells and the patch spline have a difference that is a smooth piecewise polynomial with zero data, which is zero by integration by parts; two patches: exactness of the calculator's coefficients (C72)
  * status: proved; Props/{PatchSplines, PatchSplines2D}: `c119_restrict`, `c119_restrict_periodic`, `c119_smooth_is_global`, `c119_two_patches`, `c119_restrict_2d`, `c119_smooth_2d`.
  * Real arithmetic. The DDC spline builder is outside the repository; it is modelled by the equations it solves (C116). c119_two_patches: no extra interpolation point at the boundary; patch 1 ends and patch 2 begins at the interface, all coordinates are distances to it.
* **C120 The Fourier Poisson solver has the order of the smoothness of the density** - both results are Fourier multipliers, linear in the density, hence applied term by term to the series; one sampled wave is an eigenvector if it is resolved, otherwise both the computed and the exact results are bounded; termwise differentiation of the series for the exact solution
  * status: proved; Props/{FftAccuracy}: `c120_accuracy`, `c120_order`.
  * Exact discrete Fourier transforms in real arithmetic (DDC/Kokkos-FFT are outside the repository). The density is given by its Fourier series. The wrong Nyquist component of the field (C53) is inside the bound, since waves at the Nyquist number are not among the resolved ones.
* **C121 The error of the quasi-neutrality solver is that of the grid plus that of the charge** - linearity of the two Fourier multipliers splits the error into the one of C120 for the exact density and the response to the charge error, which the stability bound of C53 controls; Minkowski's inequality adds them
  * status: proved; Props/{QnAccuracy}: `c121_accuracy`, `c121_xyvxvy`.
  * Builds on C53, C87 and C120. Exact real arithmetic. The pointwise error of the quadrature is a hypothesis (C54, C112 bound it).
* **C122 The largest stable time steps of the time steppers** - the energy after a step is an explicit combination of the norms of A^k y, since the other inner products vanish or are minus such norms; induction on the steps; polynomial inequalities for the decay
  * status: proved; Props/{RkStability}: `c122_conservative`, `c122_crank_nicolson`, `c122_crank_nicolson_dissipative`, `c122_oscillation`, `c122_decay`.
  * Real arithmetic (rounding: C108). Default update functor y + dy dt.
* **C123 On uniform periodic grids the trapezoid rule has the order of the smoothness of the integrand** - the sum of a wave over the grid is a geometric sum, zero unless n divides the wave number; termwise integration by dominated convergence
  * status: proved; Props/{TrapezoidPeriodic}: `c123_aliasing`, `c123_exact`, `c123_order`, `c123_sharp`, `c123_simpson_aliasing`, `c123_simpson`.
  * Real arithmetic (C97 bounds the rounding). Same model of the coefficients as C13.

## Statements refuted by the code

Where the code does not have the property a user expects, the theorem states the negation with a witness that the
code accepts, beside the theorem giving the exact conditions under which it holds:

* C03 MPI order mismatch; C10 truncation of a rounded quotient and limited wrap loop; C11 one-point dichotomy;
  C12 flipped ring of interfaces; C14 Simpson on too few points; C19 periodic identity builder on a small grid.
* C22 centre block: overlapping memcpy and overrun; C23 symmetric check of the tridiagonal matrix; C25 unsorted COO batches;
  C26 documented pattern dropped; C27 `neg_1_pow` of negative odd exponents, `factorial(21)`.
* C34 `jacobian_component` never compiles; C37 Cartesian trace rejected; C41 adaptive Krook charge; C42 degenerate extents;
  C44 adiabatic charge ignored (XVx) or counted once per rank (XYVxVy with MPI); C45 right-hand-side splitting not symmetric.
* C46 event time of the polar RK2 loop, stale density of the implicit loop; C47 explicit scheme only of first order, implicit
  predictor field; C48 electron mass lookup with adiabatic electrons; C50 coinciding random break points; C51 missed cells, and accepted points for which the spline problem is singular.
* C53 Nyquist mode; C55 degree 21; C56 `get_first_t`, `find_grid`; C58 last poloidal line; C59 iteration numbers accepted silently;
  C61 slices on periodic or reversed edges; C62 sign of the determinant; C65 density of the (vpar, mu) Maxwellian;
  C66 dispersion relation with an inner wall; C69 out-of-range read; C70 Cartesian tags; C71 stale cache.
* C72 two-cell, one-cell and unequal uniform patches; C73 two periodic dimensions and points outside of the domain;
  C74 too few poloidal cells; C76 extrapolation angle; C77 move assignment and slices without position; C78 missing check.
* C79 ELL assertion off by one, strides ignored, relative tolerance checked as absolute.
* C80 zero output interval, rounding of the interval, early end of the polar simulations.
* C81 vortex merger: perturbation lost, uninitialised memory, sign of the equation.
* C82 uniformity of mu unchecked, double release after a copy.
* C83 component fields with different index ranges or one pointer for two components accepted by the constructors.
* C84 patches with a common element type cannot be read; the owning constructor of MultipatchFieldMem never compiles.
* C85 two patches with one builder type.
* C89 (part): trailing name ignored, same vector twice overrun, masses shorter than charges read out of range.
* C90 (part): `PDI_expose_idx_range` counts from index 0.
* C91 (part): `_MeshFile` never read, two names for the points, negative number of cells.
* C92 (part): empty last dimension.
* C93 With a fixed tolerance CrankNicolson degenerates to the explicit Euler method for small steps (c93_cn_small_steps_are_euler, c93_cn_not_second_order).
* C86 jump with the null rule; C88 aliasing of a gradient with its field.
* C102 the wrapped coordinate may be outside of the domain by rounding (witnesses), and then the search of the cell on a non-uniform grid does not end
* C104 with two or more sources the code applies the sources in the same order before and after the transport; the local error is h^2/4 (R2'(R1) - R1'(R2)) + O(h^3) and the loop is not second order (witness: two shears).
* C110 The refined builder can be constructed only once per type in a program, whatever happened to the first one (c110_refined_once); it cannot be instantiated if exactly one of the two original spline spaces is uniform (c110_mixed); a mapping dangles once its builder is destroyed (c110_dangling); on a domain without the O-point the host and the device version of o_point() disagree (c110_o_point_annulus).
* C111 `2 * M_PI` is returned as an angle by the conversions from Cartesian coordinates (`c111_angle_is_period`).
* C112 A restarted run first rewrites the file it started from, not atomically: a kill during that write destroys the newest complete file; repeated kills can destroy all files (c112_restart_destroys_its_file, c112_all_lost).
* C116 (limit) with degree 2 and interpolation at the break points (not the Greville points) of two equal periodic cells, the spline with coefficients 1, -1 vanishes at all interpolation points: the interpolation problem is singular.
* C117 (positivity) the cubic spline advection turns non-negative values into negative ones: on four cells the values 1, 0, 0, 0 give -3/32 after a displacement by half a cell.

## Parts of the code that are not modelled

* DDC, Kokkos, Ginkgo, LAPACK, MPI, PDI and paraconf themselves: only the contract that the calling code relies on.
* `params.yaml.hpp` (embedded parameter files), `spline_definitions_*.hpp` and `geometry_*.hpp` (type aliases that choose degrees and
  boundary conditions), `preprocessor.hpp`, `assert.hpp` (macros), and pure interface headers (`i*.hpp`): no behaviour of
  their own beyond the virtual signatures implemented elsewhere.
* Rounding errors, except in C10; execution order inside one `parallel_for_each`; device/host memory spaces, except where a
  property is about them (C46, C83).
* The Python post-processing scripts, the CMake files and the tests.


## Axioms of each theorem

Output of `#print axioms` on every theorem of MANIFEST.json, grouped.

* **none** (2 theorems): Verif.EdgeTransform.c10_wrap_limit_counterexample, Verif.CollisionInterface.c82_mu_unchecked

* **propext** (17 theorems): Verif.Connectivity.c12_repeated_edge_accepted, Verif.Csr.c25_setup_sort_counterexample, Verif.Tensor.c36_identity, Verif.Tensor.c37_cartesian_trace_rejected, Verif.Tensor.c37_rejects, Verif.TypeSeq.c56_get_first_defect, Verif.TypeSeq.c56_get_first_head, Verif.MatchSlice.c61_single_points, Verif.SplineCache.c71_gradients, Verif.SplineCache.c71_opposite_orders, Verif.VectorFields.c83_get_read, Verif.VectorFields.c83_deepcopy_refused, Verif.MultipatchData.c84_get_iff, Verif.MultipatchData.c85_missing_edge, Verif.MultipatchData.c85_builder, Verif.MultipatchData.c85_builder_2d, Verif.Parallel.c96_copy

* **propext, Classical.choice, Quot.sound** (953 theorems): Verif.MpiLayout.c01_partition, Verif.MpiLayout.c02_error_iff, Verif.MpiTranspose.c03_transpose_to, Verif.MpiTranspose.c03_constructor, Verif.MpiTranspose.c03_order_mismatch_counterexample, Verif.Transpose.c04_transpose_values, Verif.Transpose.c04_no_write_outside, Verif.Timestepper.c05_euler_linear, Verif.Timestepper.c05_rk2_linear, Verif.Timestepper.c05_rk3_linear, Verif.Timestepper.c05_rk4_linear, Verif.Timestepper.c05_euler_quadrature, Verif.Timestepper.c05_rk2_quadrature, Verif.Timestepper.c05_rk3_quadrature, Verif.Timestepper.c05_rk4_quadrature, Verif.Timestepper.c06_equilibrium, Verif.Timestepper.c06_linear_invariant, Verif.Timestepper.c06_cn_equilibrium, Verif.Timestepper.c06_cn_linear_invariant, Verif.Timestepper.c07_iteration_count, Verif.Timestepper.c07_converged_meaning, Verif.Timestepper.c07_fixed_point, Verif.Timestepper.c07_residual, Verif.Timestepper.c07_contraction, Verif.Timestepper.c07_converges, Verif.Timestepper.c07_large_step, Verif.Onion.c08_locate, Verif.Onion.c08_constructor, Verif.EdgeTransform.c09_round_trip_nonperiodic, Verif.EdgeTransform.c09_round_trip, Verif.EdgeTransform.c09_ends, Verif.EdgeTransform.c09_order, Verif.EdgeTransform.c09_order_periodic, Verif.EdgeTransform.c09_stays_on_edge, Verif.EdgeTransform.c10_uniform_exact, Verif.EdgeTransform.c10_wrap, Verif.EdgeTransform.c10_rounding_counterexample, Verif.EdgeTransform.c10_binary64_right, Verif.EdgeTransform.c10_binary64_error, Verif.EdgeTransform.c10_binary64_wrong, Verif.EdgeTransform.c11_finds_match, Verif.EdgeTransform.c11_sound, Verif.EdgeTransform.c11_single_point_diverges, Verif.Connectivity.c12_grids, Verif.Connectivity.c12_interfaces, Verif.Connectivity.c12_interfaces_once, Verif.Connectivity.c12_patch_connections, Verif.Connectivity.c12_find_connections, Verif.Connectivity.c12_inner_edges, Verif.Connectivity.c12_all_patches, Verif.Connectivity.c12_four_edges, Verif.Connectivity.c12_complete, Verif.Quadrature.c13_affine_exact, Verif.Quadrature.c13_is_piecewise_affine, Verif.Quadrature.c13_positive_and_total, Verif.Quadrature.c14_piecewise_parabola, Verif.Quadrature.c14_quadratic_exact, Verif.Quadrature.c14_cubic_exact, Verif.Quadrature.c14_rejects, Verif.Quadrature.c14_small_sizes_counterexample, Verif.Quadrature.c14_simpson_trapezoid_affine, Verif.Quadrature.c14_simpson_trapezoid_parts, Verif.GaussLegendre.c15_composite, Verif.GaussLegendre.c15_composite_exact, Verif.GaussLegendre.c15_tables, Verif.GaussLegendre.c15_points_increasing, Verif.GaussLegendre.c15_nodes_are_legendre_roots, Verif.QuadratureND.c16_decode_bijective, Verif.QuadratureND.c16_batched, Verif.QuadratureND.c16_volume, Verif.Lagrange.c17_values_non_uniform, Verif.Lagrange.c17_values_uniform, Verif.Lagrange.c17_reproduction, Verif.Lagrange.c18_derivs_non_uniform, Verif.Lagrange.c18_derivs_uniform, Verif.LagrangeEvaluator.c19_closest_uniform, Verif.LagrangeEvaluator.c19_closest_non_uniform, Verif.LagrangeEvaluator.c19_stencil_non_periodic, Verif.LagrangeEvaluator.c19_stencil_periodic, Verif.LagrangeEvaluator.c19_builder, Verif.LagrangeEvaluator.c19_builder_small_grid_counterexample, Verif.LagrangeEvaluator.c19_uniform_non_periodic, Verif.LagrangeEvaluator.c19_non_uniform_non_periodic, Verif.LagrangeEvaluator.c19_uniform_periodic, Verif.LagrangeEvaluator.c19_non_uniform_periodic, Verif.MatrixTools.c20_corner_solve, Verif.MatrixTools.c20_solve_multiple, Verif.MatrixTools.c21_periodic_storage, Verif.MatrixTools.c21_periodic_solve, Verif.MatrixTools.c22_centre_storage, Verif.MatrixTools.c22_centre_solve, Verif.Tridiag.c23_solve, Verif.Tridiag.c23_strictly_dominant, Verif.Tridiag.c23_weakly_dominant, Verif.Tridiag.c23_symmetric_check_accepts_unsymmetric, Verif.Tridiag.c23_symmetric_check_rejects_symmetric, Verif.MatrixTools.c24_banded_get_set, Verif.MatrixTools.c24_banded_zero, Verif.MatrixTools.c24_banded_layout, Verif.MatrixTools.c24_pds_get_set, Verif.Csr.c25_sorted, Verif.MatrixTools.c26_make_banded, Verif.MatrixTools.c26_make_periodic, Verif.MatrixTools.c26_make_block, Verif.MatrixTools.c26_make_corner, Verif.MatrixTools.c26_doc_pattern_dropped, Verif.MathTools.c27_sum, Verif.MathTools.c27_sum_range, Verif.MathTools.c27_ipow_int, Verif.MathTools.c27_modulo, Verif.MathTools.c27_neg_1_pow, Verif.MathTools.c27_neg_1_pow_negative_odd, Verif.MathTools.c27_det2, Verif.MathTools.c27_det3, Verif.MathTools.c27_inv2, Verif.MathTools.c27_inv3, Verif.Fdm.c28_exact_on_quadratics, Verif.Fdm.c28_linear, Verif.Fdm.c28_periodic, Verif.Fdm.c28_periodic_shift, Verif.Fdm.c28_boundary_front, Verif.Fdm.c28_boundary_back, Verif.Fdm.c28_boundary_constant, Verif.Norms.c29_norm_inf_le_iff, Verif.Norms.c29_norm_inf_nonneg, Verif.Norms.c29_norm_inf_bounds, Verif.Norms.c29_norm_inf_attained, Verif.Norms.c29_norm_inf_smul, Verif.Norms.c29_norm_inf_add, Verif.Norms.c29_norm_inf_schedule, Verif.Norms.c29_error_norm_inf, Verif.Norms.c29_norm_inf_vector, Verif.Norms.c29_norm_L1, Verif.Norms.c29_norm_L1_seminorm, Verif.Norms.c29_norm_L1_definite, Verif.Norms.c29_norm_L2, Verif.Norms.c29_norm_L2_seminorm, Verif.Norms.c29_error_norms, Verif.Mappings.c30_cart_circ_cart, Verif.Mappings.c30_circ_cart_circ, Verif.Mappings.c30_range, Verif.Mappings.c30_o_point, Verif.Mappings.c31_circ_jacobian, Verif.Mappings.c31_circ_det, Verif.Mappings.c31_circ_components, Verif.Mappings.c31_circ_inverse, Verif.Mappings.c31_cart_to_circ_matrix, Verif.Mappings.c31_cart_to_circ_det, Verif.Mappings.c31_cart_to_circ_jacobian, Verif.Mappings.Czarny.c31_czarny_jacobian, Verif.Mappings.Czarny.c31_czarny_det, Verif.Mappings.Czarny.c31_czarny_inverse, Verif.Mappings.Czarny.c32_o_point, Verif.Mappings.Czarny.c32_czarny_cart_czarny, Verif.Mappings.Czarny.c32_unit_disk, Verif.Mappings.Czarny.c32_cart_czarny_cart, Verif.Mappings.Czarny.c32_range, Verif.CoordTransforms.c33_cart_bary_cart, Verif.CoordTransforms.c33_sum_one, Verif.CoordTransforms.c33_bary_cart_bary, Verif.CoordTransforms.c33_corners, Verif.CoordTransforms.c33_inside, Verif.CoordTransforms.c33_linear, Verif.CoordTransforms.c33_linear_inverse_jacobian, Verif.CoordTransforms.c33_linear_deriv, Verif.CoordTransforms.c34_toroidal_jacobian, Verif.CoordTransforms.c34_toroidal_matrix, Verif.CoordTransforms.c34_cylindrical_jacobian, Verif.CoordTransforms.c34_cylindrical_matrix, Verif.CoordTransforms.c34_cart_cyl_cart, Verif.CoordTransforms.c34_cyl_cart_cyl, Verif.CoordTransforms.c34_cart_cyl_jacobian, Verif.CoordTransforms.c34_component_never_compiles, Verif.CombinedMapping.c34_combined_jacobian, Verif.CombinedMapping.c34_combined_jacobian_intermediate, Verif.CombinedMapping.c34_combined_inverse, Verif.CombinedMapping.c34_o_point_interpolation, Verif.CombinedMapping.c34_o_point_circular, Verif.CombinedMapping.c34_o_point_czarny, Verif.CombinedMapping.c34_pseudo_cartesian_czarny, Verif.CombinedMapping.c34_pseudo_cartesian_object, Verif.CombinedMapping.c34_circular_identity, Verif.VectorMapper.c35_metric_symmetric, Verif.VectorMapper.c35_metric_pos_def, Verif.VectorMapper.c35_metric_inverse, Verif.VectorMapper.c35_conversion_compose, Verif.VectorMapper.c35_conversion_meaning, Verif.VectorMapper.c35_scalar_product, Verif.VectorMapper.c35_copy_to_vector_space, Verif.VectorMapper.c35_inverse_jacobian, Verif.Tensor.c36_position_to_element, Verif.Tensor.c36_element_to_position, Verif.Tensor.c36_injective, Verif.Tensor.c36_get_set, Verif.Tensor.c36_arithmetic, Verif.Tensor.c36_eq, Verif.Tensor.c36_assign_elements, Verif.Tensor.c37_tensor_mul, Verif.Tensor.c37_accepted_iff, Verif.TypeSeq.c38_defined, Verif.TypeSeq.c38_duplicate, Verif.TypeSeq.c38_sign, Verif.TypeSeq.c38_swap, Verif.Tensor.c38_levi_civita, Verif.TypeSeq.c56_unique, Verif.TypeSeq.c56_unique_first, Verif.TypeSeq.c56_has_unique, Verif.TypeSeq.c56_range, Verif.TypeSeq.c56_range_drops_repetitions, Verif.TypeSeq.c56_insert, Verif.TypeSeq.c56_insert_before, Verif.TypeSeq.c56_insert_mpi_tags, Verif.TypeSeq.c56_adjacent, Verif.Collisions.c39_momentum_cancels, Verif.Collisions.c39_energy_cancels, Verif.Collisions.c39_equilibrium, Verif.Collisions.c39_heat_flows_to_colder, Verif.Collisions.c39_friction_dissipates, Verif.Collisions.c39_reciprocity, Verif.Collisions.c39_species_symmetry, Verif.Collisions.c39_maxwellian_moments, Verif.Collisions.c39_source_moments, Verif.Collisions.c39_total_conservation, Verif.Collisions.c39_discrete_moments, Verif.Collisions.c39_equilibrium_step, Verif.Collisions.c39_find_ion, Verif.Collisions.c39_ctor, Verif.Sources.c40_target_fixed, Verif.Sources.c40_semigroup, Verif.Sources.c40_exact_solution, Verif.Sources.c40_contraction, Verif.Sources.c40_converges, Verif.Sources.c41_derivative_conserves, Verif.Sources.c41_conservation_iff, Verif.Sources.c41_charge_not_conserved, Verif.Sources.c41_ion_density, Verif.Sources.c42_error_iff, Verif.Sources.c42_bounds, Verif.Sources.c42_complementary, Verif.Sources.c42_symmetric, Verif.Sources.c42_increasing, Verif.Sources.c42_normalised, Verif.Sources.c42_norm_positive, Verif.Sources.c42_half_extent_degenerate, Verif.Sources.c42_zero_extent, Verif.Collisions.c43_row, Verif.Collisions.c43_crank_nicolson, Verif.Collisions.c43_pivots, Verif.Collisions.c43_positive, Verif.Collisions.c43_negative, Verif.Collisions.c43_mass_balance, Verif.Collisions.c43_staggered_midpoints, Verif.Collisions.c43_ghosted, Verif.Collisions.c43_uniform_agrees, Verif.Collisions.c43_operator, Verif.Collisions.c43_rates_exist, Verif.Moments.c44_xyvxvy, Verif.Moments.c44_xvx_kinetic, Verif.Moments.c44_xvx_iff, Verif.Moments.c44_mpi_value, Verif.Moments.c44_mpi_iff, Verif.Moments.c57_overloads_agree, Verif.Moments.c57_raw_moments, Verif.Moments.c57_scaling, Verif.Moments.c57_galilean, Verif.Moments.c57_temperature_nonneg, Verif.Moments.c57_velocity_bounds, Verif.Moments.c57_collision_moments_agree, Verif.Collisions.c63_conservation, Verif.Collisions.c63_unique, Verif.Collisions.c63_derivative, Verif.Collisions.c63_derivative_at_rest, Verif.Collisions.c63_positive, Verif.Collisions.c63_decreasing, Verif.Collisions.c63_monotone, Verif.Collisions.c63_limit, Verif.Collisions.c63_at_rest, Verif.Collisions.c63_operator_conserves, Verif.Collisions.c63_coefficients, Verif.Sources.c64_shape_moments, Verif.Sources.c64_maxwellian, Verif.Sources.c64_additive, Verif.Sources.c64_total_density, Verif.MatchSlice.c61_uniform, Verif.MatchSlice.c61_periodic_counterexample, Verif.MatchSlice.c61_step, Verif.MatchSlice.c61_non_uniform, Verif.MatchSlice.c61_reversed_counterexample, Verif.OrthoTransforms.c62_jacobian_matrix, Verif.OrthoTransforms.c62_jacobian, Verif.OrthoTransforms.c62_jacobian_aligned, Verif.OrthoTransforms.c62_jacobian_wrong_sign, Verif.OrthoTransforms.c62_jacobian_wrong_sign_witness, Verif.OrthoTransforms.c62_apply, Verif.OrthoTransforms.c62_apply_part, Verif.OrthoTransforms.c62_component_cartesian, Verif.OrthoTransforms.c62_component_curvilinear, Verif.OrthoTransforms.c62_inverse, Verif.OrthoTransforms.c62_identity_apply, Verif.OrthoTransforms.c62_identity_matrix, Verif.OrthoTransforms.c62_identity_transform, Verif.Splitting.c45_xvx_total_time, Verif.Splitting.c45_xyvxvy_total_time, Verif.Splitting.c45_xvx_reversible, Verif.Splitting.c45_xyvxvy_reversible, Verif.Splitting.c45_rhs_total_time, Verif.Splitting.c45_rhs_reversible_one, Verif.Splitting.c45_rhs_not_reversible, Verif.Splitting.c45_documented_reversible, Verif.Splitting.c45_rhs_documented_comm, Verif.Splitting.c45_xvx_second_order, Verif.Splitting.c45_xyvxvy_second_order, Verif.Splitting.c45_mpi_eq_serial, Verif.Splitting.c45_transpose_roundtrip, Verif.TimeLoops.c46_xvx, Verif.TimeLoops.c46_xvx_event, Verif.TimeLoops.c46_xvx_count, Verif.TimeLoops.c46_xvx_restart, Verif.TimeLoops.c46_xvx_restart_events, Verif.TimeLoops.c46_xyvxvy, Verif.TimeLoops.c46_xyvxvy_restart, Verif.TimeLoops.c46_xy, Verif.TimeLoops.c46_xy_restart, Verif.TimeLoops.c46_polar_rk2, Verif.TimeLoops.c46_polar_rk2_time_wrong, Verif.TimeLoops.c46_polar_rk2_duplicate_time, Verif.TimeLoops.c46_polar_rk2_restart, Verif.TimeLoops.c46_explicit, Verif.TimeLoops.c46_explicit_restart, Verif.TimeLoops.c46_implicit_host, Verif.TimeLoops.c46_implicit_device_stale, Verif.TimeLoops.c46_implicit_device_events, Verif.TimeLoops.c46_implicit_restart, Verif.TimeLoops.c47_explicit_actual, Verif.TimeLoops.c47_explicit_stationary, Verif.TimeLoops.c47_explicit_not_documented, Verif.TimeLoops.c47_documented_second_order, Verif.TimeLoops.c47_explicit_only_first_order, Verif.TimeLoops.c47_implicit_loop, Verif.TimeLoops.c47_implicit_loop_code, Verif.TimeLoops.c47_sqDiff_bound, Verif.TimeLoops.c47_implicit_actual, Verif.TimeLoops.c47_implicit_predictor_not_documented, Verif.Species.c48_ielec, Verif.Species.c48_init, Verif.Species.c48_init_species, Verif.Species.c48_kinetic_electron_mass, Verif.Species.c48_adiabatic_electron_mass, Verif.Species.c48_kinetic, Verif.GridTools.c49_restrict, Verif.GridTools.c49_unique, Verif.GridTools.c49_inside, Verif.GridTools.c49_periodic, Verif.GridTools.c49_bspline, Verif.GridTools.c49_bspline_non_periodic, Verif.GridTools.c49_length_uniform, Verif.GridTools.c49_length, Verif.GridTools.c49_max_distance, Verif.GridTools.c50_uniform, Verif.GridTools.c50_uniform_increasing, Verif.GridTools.c50_random, Verif.GridTools.c50_random_default_not_increasing, Verif.GridTools.c50_random_default, Verif.GridTools.c51_reject_sound, Verif.GridTools.c51_accept_complete, Verif.GridTools.c51_number, Verif.GridTools.c51_non_periodic, Verif.GridTools.c51_missed, Verif.GridTools.c51_uniform, Verif.GridTools.c51_refused_singular, Verif.GridTools.c51_well_posed_accepted, Verif.GridTools.c51_greville_accepted, Verif.GridTools.c51_accepted_singular, Verif.Input.c59_extension, Verif.Input.c59_returns, Verif.Input.c59_dumps, Verif.Input.c59_fails, Verif.Input.c59_overload, Verif.Input.c59_iteration, Verif.Input.c59_negative_accepted, Verif.Input.c59_not_a_number, Verif.Initial.c60_floor, Verif.Initial.c60_floor_2d, Verif.Initial.c60_floor_no_perturb, Verif.Initial.c60_small_amplitude, Verif.Initial.c60_periodic, Verif.Initial.c60_mass, Verif.Initial.c60_mass_unresolved, Verif.Initial.c60_2d_bound, Verif.Initial.c60_kelvin_helmholtz, Verif.Initial.c65_maxwellian, Verif.Initial.c65_bump_eq, Verif.Initial.c65_bump, Verif.Initial.c65_maxwellian_2d, Verif.Initial.c65_vpar_mu, Verif.Initial.c65_vpar_mu_temperature, Verif.Initial.c65_vpar_mu_density_iff, Verif.Initial.c66_root, Verif.Initial.c66_no_inner_wall, Verif.Initial.c66_discrepancy, Verif.Initial.c66_inner_wall_wrong, Verif.Initial.c66_density, Verif.Initial.c67_norm_is_max, Verif.Initial.c67_normalised, Verif.Initial.c67_step, Verif.Initial.c67_find_equilibrium, Verif.Initial.c67_density, Verif.Initial.c67_init, Verif.Advection.c54_stepper_constant, Verif.Advection.c54_stepper_zero, Verif.Advection.c54_constant_field, Verif.Advection.c54_translation, Verif.Advection.c54_transport_equation, Verif.Advection.c54_zero_step, Verif.Advection.c54_zero_field, Verif.Advection.c54_grid_shift, Verif.Advection.c54_constant_function, Verif.Advection.c54_linear, Verif.Advection.c54_maximum_principle, Verif.Advection.c54_two_steps, Verif.Advection.c54_lines_independent, Verif.Advection.c54_linear_field, Verif.Advection.c54_spatial, Verif.Advection.c54_velocity, Verif.Advection.c54_vlasov_translation, Verif.Advection.c54_null, Verif.Advection.c68_update, Verif.Advection.c68_velocity, Verif.Advection.c68_update_exact, Verif.Advection.c68_update_theta, Verif.Advection.c68_constant_velocity, Verif.Advection.c68_unified, Verif.Advection.c68_single_valued, Verif.Advection.c68_feet_theta, Verif.Advection.c68_translation, Verif.Advection.c68_euler, Verif.Advection.c68_rk2, Verif.Advection.c68_zero_step_feet, Verif.Advection.c68_zero_step, Verif.Advection.c68_zero_step_centre, Verif.Advection.c68_constant_function, Verif.Advection.c68_batches_independent, Verif.Advection.c68_average, Verif.Advection.c68_average_constant, Verif.Advection.c68_centre, Verif.Advection.c68_overloads_agree, Verif.Fem.c52_periodic_entries, Verif.Fem.c52_stiffness, Verif.Fem.c52_rhs, Verif.Fem.c52_periodic_nonsingular, Verif.Fem.c52_periodic, Verif.Fem.c52_periodic_unique, Verif.Fem.c52_stiffness_dirichlet, Verif.Fem.c52_dirichlet_positive, Verif.Fem.c52_symmetric, Verif.Fem.c52_dirichlet, Verif.Fem.c52_dirichlet_unique, Verif.Fem.c52_dirichlet_energy, Verif.Fem.c52_dirichlet_best, Verif.Fem.c52_periodic_best, Verif.Fem.c52_dirichlet_stable, Verif.Fem.c52_written_dirichlet, Verif.Fem.c52_written_periodic, Verif.Fft.c53_laplace_pos, Verif.Fft.c53_round_trip, Verif.Fft.c53_poisson, Verif.Fft.c53_zero_mean, Verif.Fft.c53_linear, Verif.Fft.c53_cosine, Verif.Fft.c53_sine, Verif.Fft.c53_symmetric, Verif.Fft.c53_energy_pos, Verif.Fft.c53_energy, Verif.Fft.c53_stable, Verif.Fft.c53_nyquist, Verif.PolarSplines.c55_values, Verif.PolarSplines.c55_partition, Verif.PolarSplines.c55_number, Verif.PolarSplines.c55_nbasis, Verif.PolarSplines.c55_nonneg, Verif.PolarSplines.c55_degree_one, Verif.PolarSplines.c55_corner1, Verif.PolarSplines.c55_corner2, Verif.PolarSplines.c55_corner3, Verif.PolarSplines.c55_overflow, Verif.PolarSplines.c69_index_roundtrip, Verif.PolarSplines.c69_index_roundtrip', Verif.PolarSplines.c69_index_range, Verif.PolarSplines.c69_eval, Verif.PolarSplines.c69_too_few_cells, Verif.PolarSplines.c69_linear, Verif.PolarSplines.c69_triangle, Verif.PolarSplines.c69_elements_sum, Verif.PolarSplines.c69_partition, Verif.PolarSplines.c69_nonneg, Verif.PolarSplines.c69_continuous, Verif.PolarSplines.c69_smooth, Verif.PolarSplines.c69_reproduces_affine, Verif.PolarSplines.c69_outer, Verif.PolarSplines.c69_periodic, Verif.PolarSplines.c69_evaluate, Verif.PolarSplines.c69_deriv, Verif.PolarSplines.c69_integral_singular, Verif.PolarSplines.c69_integral_tensor, Verif.Gyroaverage.c58_value, Verif.Gyroaverage.c58_last_line, Verif.Gyroaverage.c58_linear, Verif.Gyroaverage.c58_constant, Verif.Gyroaverage.c58_bounds, Verif.Gyroaverage.c58_zero_radius, Verif.Gyroaverage.c58_last_line_wrong, Verif.Gyroaverage.c58_affine, Verif.Gyroaverage.c58_polynomial, Verif.Gyroaverage.c58_accuracy, Verif.Gyroaverage.c58_smooth, Verif.Gyroaverage.c58_quadratic, Verif.Gyroaverage.c58_batches, Verif.DiffOps.c70_norm, Verif.DiffOps.c70_gradient, Verif.DiffOps.c70_gradient_field, Verif.DiffOps.c70_bracket, Verif.DiffOps.c70_bracket_fields, Verif.DiffOps.c70_bracket_algebra, Verif.DiffOps.c70_bracket_direction, Verif.DiffOps.c70_bracket_vector, Verif.DiffOps.c70_curl, Verif.DiffOps.c70_curl_grad, Verif.DiffOps.c70_cartesian_argument, Verif.DiffOps.c70_cartesian_argument_wrong, Verif.InterfaceDerivs.c72_non_uniform, Verif.InterfaceDerivs.c72_chosen_cells, Verif.InterfaceDerivs.c72_two_cells, Verif.InterfaceDerivs.c72_one_cell, Verif.InterfaceDerivs.c72_uniform_formula, Verif.InterfaceDerivs.c72_uniform, Verif.InterfaceDerivs.c72_uniform_wrong, Verif.NDLagrange.c73_tensor, Verif.NDLagrange.c73_reproduce, Verif.NDLagrange.c73_knots, Verif.NDLagrange.c73_polynomials, Verif.NDLagrange.c73_builder, Verif.NDLagrange.c73_builder_one_periodic, Verif.NDLagrange.c73_builder_two_periodic, Verif.NDLagrange.c73_outside_hangs, Verif.NDLagrange.c73_periodic_out_of_range, Verif.PolarFem.c74_structure, Verif.PolarFem.c74_writes, Verif.PolarFem.c74_values, Verif.PolarFem.c74_product, Verif.PolarFem.c74_rhs, Verif.PolarFem.c74_solution, Verif.PolarFem.c74_symmetric_psd, Verif.PolarFem.c74_definite, Verif.PolarFem.c74_exists_unique, Verif.PolarFem.c74_energy, Verif.PolarFem.c74_best, Verif.PolarFem.c74_reproduces, Verif.PolarFem.c74_singular, Verif.PolarFem.c74_too_few_cells, Verif.GuidingCentre.c75_physical, Verif.GuidingCentre.c75_flux, Verif.GuidingCentre.c75_logical, Verif.GuidingCentre.c75_linearised, Verif.GuidingCentre.c75_o_point, Verif.GuidingCentre.c75_discrete, Verif.MultipatchSpline.c76_patch, Verif.MultipatchSpline.c76_value, Verif.MultipatchSpline.c76_deriv, Verif.MultipatchSpline.c76_deriv_outside, Verif.MultipatchSpline.c76_null, Verif.MultipatchSpline.c76_constant, Verif.MultipatchSpline.c76_continuous, Verif.MultipatchSpline.c76_fields, Verif.MultipatchSpline.c76_integral, Verif.MultipatchSpline.c76_norm, Verif.MultipatchSpline.c76_error_norm, Verif.MultipatchSpline.c76_constant_other_domain, Verif.DerivField.c77_access, Verif.DerivField.c77_injective, Verif.DerivField.c77_surjective, Verif.DerivField.c77_write_read, Verif.DerivField.c77_slice, Verif.DerivField.c77_ranges, Verif.DerivField.c77_ranges_only, Verif.DerivField.c77_view, Verif.DerivField.c77_lifetime, Verif.DerivField.c77_move_assign, Verif.SplineBuilderDeriv.c78_arguments, Verif.SplineBuilderDeriv.c78_orders, Verif.SplineBuilderDeriv.c78_unchecked, Verif.BatchSparse.c79_storage, Verif.BatchSparse.c79_assert_off_by_one, Verif.BatchSparse.c79_constructor, Verif.BatchSparse.c79_constructor_strides, Verif.BatchSparse.c79_ell_norm, Verif.BatchSparse.c79_csr_norm, Verif.BatchSparse.c79_norm_bound, Verif.BatchSparse.c79_batched_solve, Verif.BatchSparse.c79_loop_solve, Verif.BatchSparse.c79_relative_small, Verif.BatchSparse.c79_relative_mismatch, Verif.BatchSparse.c79_relative_accepts, Verif.Drivers.c80_interval, Verif.Drivers.c80_coll_interval, Verif.Drivers.c80_xvx_files, Verif.Drivers.c80_xyvxvy_files, Verif.Drivers.c80_xvx_restart, Verif.Drivers.c80_xvx_restart_missing, Verif.Drivers.c80_zero_interval, Verif.Drivers.c80_last_saved, Verif.Drivers.c80_interval_rounding, Verif.Drivers.c80_xy_files, Verif.Drivers.c80_polar_files, Verif.Drivers.c80_guiding_centre_steps, Verif.Drivers.c80_polar_steps, Verif.Drivers.c80_polar_loss, Verif.Drivers.c80_coll_files, Verif.PolarDrivers.c81_diocotron, Verif.PolarDrivers.c81_vortex_perturbation_lost, Verif.PolarDrivers.c81_vortex_independent, Verif.PolarDrivers.c81_vortex_phi_eq, Verif.PolarDrivers.c81_equation, Verif.PolarDrivers.c81_guiding_centre, Verif.CollisionInterface.c82_pow2, Verif.CollisionInterface.c82_replicate, Verif.CollisionInterface.c82_arguments, Verif.CollisionInterface.c82_vparMu, Verif.CollisionInterface.c82_accepted, Verif.CollisionInterface.c82_copy_releases_twice, Verif.VectorFields.c83_mem, Verif.VectorFields.c83_span, Verif.VectorFields.c83_slice_idx, Verif.VectorFields.c83_slice_range, Verif.VectorFields.c83_slice_slice, Verif.VectorFields.c83_assign, Verif.VectorFields.c83_deepcopy, Verif.VectorFields.c83_mirror, Verif.VectorFields.c83_unchecked_ranges, Verif.VectorFields.c83_alias, Verif.VectorFields.inj_layoutRight, Verif.VectorFields.inj_sliceIdx, Verif.MultipatchData.c84_get, Verif.MultipatchData.c84_shared_type, Verif.MultipatchData.c84_reorder, Verif.MultipatchData.c84_reorder_accepted, Verif.MultipatchData.c84_convert, Verif.MultipatchData.c84_map, Verif.MultipatchData.c84_field_mem, Verif.MultipatchData.c84_owning_constructor, Verif.MultipatchData.c84_deepcopy, Verif.MultipatchData.c85_build, Verif.MultipatchData.c85_same_builder_type, Verif.MultipatchData.c85_collection, Verif.Interpolators.c86_lagrange_accepted, Verif.Interpolators.c86_lagrange_uniform, Verif.Interpolators.c86_lagrange_non_uniform, Verif.Interpolators.c86_clamp, Verif.Interpolators.c86_lagrange_periodic, Verif.Interpolators.c86_spline_accepted, Verif.Interpolators.c86_spline_rules, Verif.Interpolators.c86_spline_periodic, Verif.Interpolators.c86_spline_continuous, Verif.Interpolators.c86_null_jump, Verif.QnSolver.c87_fft_background, Verif.QnSolver.c87_fft_xvx, Verif.QnSolver.c87_fft_xyvxvy, Verif.QnSolver.c87_fft_mpi, Verif.QnSolver.c87_fft_uniform, Verif.QnSolver.c87_fem_background, Verif.QnSolver.c87_fem_periodic_xvx, Verif.QnSolver.c87_fem_dirichlet_xvx_iff, Verif.QnSolver.c87_null, Verif.QnSolver.c87_assert, Verif.PartialDerivs.c88_snapshot, Verif.PartialDerivs.c88_make_pure, Verif.PartialDerivs.c88_quadratic, Verif.PartialDerivs.c88_in_place, Verif.PartialDerivs.c88_gradient, Verif.PartialDerivs.c88_gradient_alias_witness, Verif.PartialDerivs.c88_rhs_view, Verif.Pdi.c89_read, Verif.Pdi.c89_arguments, Verif.Pdi.c89_trailing_argument, Verif.Pdi.c89_same_vector, Verif.Pdi.c89_species, Verif.Pdi.c90_file, Verif.Pdi.c90_front_needed, Verif.Pdi.c90_mesh, Verif.MeshInit.c91_uniform, Verif.MeshInit.c91_non_uniform, Verif.MeshInit.c91_uniform_user, Verif.MeshInit.c91_non_uniform_user, Verif.MeshInit.c91_once, Verif.MeshInit.c91_missing, Verif.MeshInit.c91_pseudo_uniform, Verif.MeshInit.c91_mesh_file, Verif.MeshInit.c91_grid_name, Verif.MeshInit.c91_negative_cells, Verif.RkOrder.c93_euler, Verif.RkOrder.c93_rk2, Verif.RkOrder.c93_rk3, Verif.RkOrder.c93_rk4, Verif.RkOrder.c93_crank_nicolson, Verif.RkOrder.c93_cn_small_steps_are_euler, Verif.RkOrder.c93_cn_not_second_order, Verif.Simulation.c94_fft_translation, Verif.Simulation.c94_translation_xvx, Verif.Simulation.c94_homogeneous_xvx, Verif.Simulation.c94_mass_x, Verif.Simulation.c94_free_streaming, Verif.Simulation.c94_translation_xyvxvy, Verif.Simulation.c94_homogeneous_xyvxvy, Verif.Simulation.c94_mass_xy, Verif.Simulation.c94_lagrange, Verif.Simulation.c94_spline, Verif.Simulation.c94_degree_one, Verif.AccuracyQuad.c95_trapezoid, Verif.AccuracyQuad.c95_simpson, Verif.AccuracyQuad.c95_simpson_uniform, Verif.AccuracyQuad.c95_fdm, Verif.AccuracyQuad.c95_fdm_periodic, Verif.AccuracyGauss.c95_gauss_legendre, Verif.AccuracyLagrange.c95_lagrange_derivs_non_uniform, Verif.AccuracyLagrange.c95_lagrange_derivs_uniform, Verif.AccuracyLagrange.c95_evaluator_uniform, Verif.AccuracyLagrange.c95_evaluator_non_uniform, Verif.AccuracyLagrange.c95_evaluator_uniform_periodic, Verif.AccuracyLagrange.c95_evaluator_non_uniform_periodic, Verif.AccuracyAdvection.c95_advection_linear, Verif.AccuracyAdvection.c95_advection_cubic_stable, Verif.AccuracyAdvection.c95_advection_cubic, Verif.Parallel.c96_outcome, Verif.Parallel.c96_deterministic, Verif.Parallel.c96_sequential, Verif.Parallel.c96_completes, Verif.Parallel.c96_terminates, Verif.Parallel.c96_has_outcome, Verif.Parallel.c96_range, Verif.Parallel.c96_trapezoid, Verif.Parallel.c96_simpson_centre_left, Verif.Parallel.c96_simpson_overlap, Verif.Parallel.c96_simpson_fused_race, Verif.Parallel.c96_lost_update, Verif.Parallel.c96_fem_rhs, Verif.Parallel.c96_tridiag, Verif.Parallel.c96_collisions, Verif.Parallel.c96_transpose, Verif.Parallel.c96_unify, Verif.Parallel.c96_ring, Verif.Parallel.c96_stores, Verif.Parallel.c96_team, Verif.Parallel.c96_polar_columns, Verif.Parallel.c96_polar_values, Verif.Rounding.c97_quadrature, Verif.Rounding.c97_quadrature_schedules, Verif.Rounding.c97_quadrature_sign, Verif.Rounding.c97_norm_L1, Verif.Rounding.c97_norm_L2, Verif.Rounding.c97_error_norm_inf, Verif.Rounding.c97_quadrature_exact, Verif.Rounding.c98_backward_stable, Verif.Rounding.c98_forward_error, Verif.Rounding.c98_exact, Verif.Rounding.pivots, Verif.Rounding.dominant_bound, Verif.AdvectionStability.c99_stable, Verif.AdvectionStability.c99_stable_line, Verif.AdvectionStability.c99_convergence, Verif.AdvectionStability.c99_linear_bounds, Verif.FloatAdvection.c99_negative, Verif.Strang.symbol, Verif.SplineAdvection.c100_stable, Verif.SplineAdvection.c100_interpolation, Verif.SplineAdvection.c100_convergence, Verif.SplineAdvection.exists_spline, Verif.FreeStreaming.c101_xvx_stable, Verif.FreeStreaming.c101_xvx_convergence, Verif.FreeStreaming.c101_xyvxvy_stable, Verif.FreeStreaming.c101_xyvxvy_convergence, Verif.FreeStreaming.lagrange_good, Verif.FreeStreaming.spline_good, Verif.FloatWrap.c102_ieee_relative, Verif.FloatWrap.c102_ieee_nearest, Verif.FloatWrap.c102_wrap_accuracy, Verif.FloatWrap.c102_wrap_inside, Verif.FloatWrap.c102_uniform_stencil, Verif.FloatWrap.c102_uniform_in_range, Verif.FloatWrap.c102_non_uniform_search, Verif.FloatWrap.c102_wrap_outside_domain, Verif.FloatWrap.c102_non_uniform_hangs, Verif.FloatWrap.c102_restrict_accuracy, Verif.FloatWrap.c102_restrict_ends, Verif.FloatWrap.c102_restrict_outside, Verif.FloatLagrange.c103_uniform, Verif.FloatLagrange.c103_periodic, Verif.FloatLagrange.c103_accuracy, Verif.FloatLagrange.c103_non_uniform, Verif.VlasovOrder.c104_xvx, Verif.VlasovOrder.c104_xvx_source, Verif.VlasovOrder.c104_xvx_documented, Verif.VlasovOrder.c104_xyvxvy, Verif.VlasovOrder.c104_xy, Verif.VlasovOrder.c104_polar, Verif.VlasovOrder.c104_xvx_two_sources, Verif.VlasovOrder.c104_xvx_two_sources_not_second_order, Verif.VlasovOrder.c104_vlasov_poisson, Verif.IdealVlasov.c105_xvx, Verif.IdealVlasov.c105_xvx_integrals, Verif.IdealVlasov.c105_xvx_values, Verif.IdealVlasov.c105_xyvxvy, Verif.IdealVlasov.c105_xyvxvy_integrals, Verif.IdealVlasov.c105_xyvxvy_values, Verif.MpiProgram.c106_no_deadlock, Verif.MpiProgram.c106_terminates, Verif.MpiProgram.c106_completes, Verif.MpiProgram.c106_deterministic, Verif.MpiProgram.c106_mismatch_deadlocks, Verif.MpiProgram.c106_spmd, Verif.MpiTranspose.c106_counts, Verif.MpiLandau.c106_constructor, Verif.MpiLandau.c106_landau, Verif.MpiLandau.c106_files, Verif.MpiLandau.c106_same_on_any_number, Verif.FloatQuad.c107_trapezoid_coefficients, Verif.FloatQuad.c107_trapezoid_integral, Verif.FloatQuad.c107_simpson_exact_run, Verif.FloatQuad.c107_simpson_coefficients, Verif.FloatQuad.c107_simpson_integral, Verif.FloatRk.c108_one_step, Verif.FloatRk.c108_many_steps, Verif.FloatRk.c108_total_error, Verif.FloatRk.c108_exact_step, Verif.FloatAdvection.c109_one_step, Verif.FloatAdvection.c109_stable, Verif.FloatAdvection.c109_many_steps, Verif.FloatAdvection.c109_mass, Verif.FloatAdvection.c109_total_error, Verif.FloatAdvection.exactStep_piece, Verif.FloatAdvection.exactStep_stable, Verif.FloatAdvection.disp_err, Verif.FloatAdvection.exists_run, Verif.FloatAdvection.sizes_binary64, Verif.FloatAdvection.stepErr_binary64, Verif.DiscreteMapping.fill_interpolates, Verif.DiscreteMapping.c110_mapping, Verif.DiscreteMapping.c110_refined_breaks, Verif.DiscreteMapping.c110_refined_mapping, Verif.DiscreteMapping.c110_refined_once, Verif.DiscreteMapping.c110_mixed, Verif.DiscreteMapping.c110_dangling, Verif.DiscreteMapping.c110_jacobian, Verif.DiscreteMapping.c110_singular_points, Verif.DiscreteMapping.c110_o_point, Verif.DiscreteMapping.c110_control_points, Verif.DiscreteMapping.c110_o_point_annulus, Verif.DiscreteMapping.tensor_contract, Verif.DiscreteMapping.tensor_edge, Verif.FloatPolar.c111_round_trip, Verif.FloatPolar.c111_radius, Verif.FloatPolar.c111_radius_recovered, Verif.FloatPolar.c111_angle_range, Verif.FloatPolar.c111_angle_is_period, Verif.Crash.c112_every_file_right, Verif.Crash.c112_any_interval, Verif.Crash.c112_damage, Verif.Crash.c112_torn_count, Verif.Crash.c112_between_writes, Verif.Crash.c112_killed_run, Verif.Crash.c112_resume, Verif.Crash.c112_same_as_uninterrupted, Verif.Crash.c112_from_scratch, Verif.Crash.c112_not_killed, Verif.Crash.c112_restart_destroys_its_file, Verif.Crash.c112_all_lost, Verif.FloatFdm.c113_rounding, Verif.FloatFdm.c113_boundary, Verif.FloatFdm.c113_periodic, Verif.FloatFdm.c113_accuracy, Verif.FloatFdm.c113_periodic_accuracy, Verif.FloatFdm.c113_exact_run, Verif.FloatFdm.c113_growth, Verif.BSpline.c114_dirichlet_space, Verif.BSpline.c114_periodic_space, Verif.BSpline.c114_dirichlet_solvable, Verif.BSpline.c114_periodic_solvable, Verif.BSpline.c114_dirichlet_walls, Verif.BSpline.c114_dirichlet_converges, Verif.BSpline.c114_dirichlet_potential, Verif.BSpline.c114_periodic_converges, Verif.BSpline.c114_periodic_problem, Verif.BSpline.c114_unclamped_wall, Verif.BSpline.c114_dirichlet_order, Verif.BSpline.c114_dirichlet_potential_order, Verif.BSpline.c114_periodic_order, Verif.BSpline.c114_dirichlet_density, Verif.BSpline.c114_dirichlet_potential_density, Verif.BSpline.c114_periodic_density, Verif.SplineQuadrature.c115_periodic, Verif.SplineQuadrature.c115_clamped, Verif.SplineQuadrature.c115_neumann, Verif.SplineQuadrature.c115_polynomial, Verif.SplineQuadrature.c115_neumann_polynomial, Verif.SplineQuadrature.c115_neumann_needs_slope, Verif.SplineQuadrature.c115_accuracy, Verif.SplineQuadrature.c115_periodic_accuracy, Verif.SplineQuadrature.c115_coefficients_exist, Verif.SplineInterp.c115_periodic_coefficients, Verif.SplineInterp.c115_neumann_coefficients, Verif.SplineInterp.c115_periodic_cubic, Verif.SplineInterp.c115_neumann_cubic, Verif.SplineInterp.c115_clamped_coefficients, Verif.SplineInterp.c116_periodic_unique, Verif.SplineInterp.c116_hermite_unique, Verif.SplineInterp.c116_even_degree_singular, Verif.SplineInterp.c116_periodic_accuracy, Verif.SplineInterp.c116_hermite_accuracy, Verif.SplineInterp.c116_periodic_interpolator, Verif.SplineInterp.c116_hermite_interpolator, Verif.SplineInterp.c116_periodic_exists, Verif.SplineInterp.c116_hermite_exists, Verif.SplineInterp.c116_points_unique, Verif.SplineInterp.c116_greville_unique, Verif.SplineInterp.c116_outside_singular, Verif.PeriodicSplineAdvection.c117_mass, Verif.PeriodicSplineAdvection.c117_stable, Verif.PeriodicSplineAdvection.c117_converges, Verif.PeriodicSplineAdvection.c117_spatial, Verif.PeriodicSplineAdvection.c117_not_positive, Verif.SplineInterp.c118_unique, Verif.SplineInterp.c118_sweeps, Verif.SplineInterp.c118_accuracy, Verif.SplineInterp.c118_poloidal, Verif.SplineInterp.c119_restrict, Verif.SplineInterp.c119_restrict_periodic, Verif.SplineInterp.c119_smooth_is_global, Verif.SplineInterp.c119_two_patches, Verif.SplineInterp.c119_restrict_2d, Verif.SplineInterp.c119_smooth_2d, Verif.Fft.c120_accuracy, Verif.Fft.c120_order, Verif.QnSolver.c121_accuracy, Verif.QnSolver.c121_xyvxvy, Verif.Timestepper.c122_conservative, Verif.Timestepper.c122_crank_nicolson, Verif.Timestepper.c122_crank_nicolson_dissipative, Verif.Timestepper.c122_oscillation, Verif.Timestepper.c122_decay, Verif.Quadrature.c123_aliasing, Verif.Quadrature.c123_exact, Verif.Quadrature.c123_order, Verif.Quadrature.c123_sharp, Verif.Quadrature.c123_simpson_aliasing, Verif.Quadrature.c123_simpson

* **propext, Quot.sound** (46 theorems): Verif.Connectivity.c12_flipped_ring_counterexample, Verif.Connectivity.c12_find_patch, Verif.QuadratureND.c16_iterated, Verif.QuadratureND.c16_product, Verif.MatrixTools.c22_overlap, Verif.MatrixTools.c22_solve_multiple_overrun, Verif.MatrixTools.c24_dense_get_set, Verif.MatrixTools.c24_dense_in_bounds, Verif.MatrixTools.c24_pds_symmetric, Verif.MatrixTools.c24_pds_zero, Verif.Csr.c25_first_batch, Verif.Csr.c25_row_pointers, Verif.Csr.c25_unsorted_counterexample, Verif.Csr.c25_setup_sort_only_first, Verif.MathTools.c27_ipow_nat, Verif.MathTools.c27_factorial_mod, Verif.MathTools.c27_factorial, Verif.MathTools.c27_factorial_overflow, Verif.Fdm.c28_boundary_interior, Verif.Tensor.c37_curvilinear_trace_accepted, Verif.TypeSeq.c38_foreign_index, Verif.TypeSeq.c56_range_reversed, Verif.TypeSeq.c56_cat, Verif.TypeSeq.c56_duplicate, Verif.TypeSeq.c56_find_grid, Verif.TypeSeq.c56_find_all_grids, Verif.Species.c48_at_most_one, Verif.SplineCache.c71_cache_contents, Verif.SplineCache.c71_protocol, Verif.SplineCache.c71_stale, Verif.SplineCache.c71_stale_wrong, Verif.SplineCache.c71_instances_share, Verif.PolarFem.c74_overrun, Verif.DerivField.c77_slice_position_needed, Verif.SplineBuilderDeriv.c78_boundary_field, Verif.CollisionInterface.c82_spoofed_layout, Verif.CollisionInterface.c82_distribution, Verif.CollisionInterface.c82_released_once, Verif.CollisionInterface.c82_all_released, Verif.VectorFields.c83_pointers, Verif.MultipatchData.c85_edge_bc, Verif.Pdi.c90_vector_field, Verif.ViewStream.c92_defined, Verif.ViewStream.c92_empty, Verif.ViewStream.c92_faithful, Verif.ViewStream.c92_line

