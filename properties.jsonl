{"id": "C01", "title": "MPI layout partitions the global index range", "statement": "When MPILayout::distribute_idx_range succeeds for a communicator of size P, the local index ranges handed to ranks 0..P-1 are pairwise disjoint, their union is exactly the global index range, they all have the same number of points, and every dimension not listed as distributed is left whole.", "quantifier": "all communicator sizes, all numbers of dimensions, all extents, all subsets of distributed dimensions, all ranks", "why_tests_cant": "Tests run a handful of rank counts and extents; the gcd based recursion must be right for every factorisation of P over the distributed extents.", "anchors": ["src/mpi_parallelisation/mpilayout.hpp: MPILayout::distribute_idx_range, internal_distribute_idx_range"]}
{"id": "C02", "title": "MPI layout rejects exactly the indivisible cases", "statement": "MPILayout::distribute_idx_range raises an error if and only if the communicator size does not divide the product of the extents of the distributed dimensions; in particular the nested divisibility test never fires once the outer test passed.", "quantifier": "all communicator sizes, extents and sets of distributed dimensions", "why_tests_cant": "The nested error branch is unreachable only because of an arithmetic fact (P | n*m implies P/gcd(P,n) | m) that no finite set of sizes establishes.", "anchors": ["src/mpi_parallelisation/mpilayout.hpp: distribute_idx_range"]}
{"id": "C03", "title": "All-to-all transposition delivers the right data to each rank", "statement": "After MPITransposeAllToAll moves a distributed field from one MPI layout to another, every rank holds, at each index of its local range in the new layout, exactly the value the owning rank held at that index in the old layout, whatever the order of the parallel copies, for layouts that share no distributed dimension and list the distributed dimensions in the order of their tags. The constructor succeeds exactly when the communicator size divides the number of distributed points of both layouts (and is not larger than that of the first). (Shown: layouts listing the distributed dimensions in another order are accepted and wrong data is delivered.)", "quantifier": "all communicator sizes, numbers of dimensions, extents, tag orders, ranks, indices, schedules and field contents", "why_tests_cant": "The correctness of the pack / exchange / unpack index arithmetic must hold for each rank pair and block size, not for the sizes in the tests.", "anchors": ["src/mpi_parallelisation/mpitransposealltoall.hpp: MPITransposeAllToAll::transpose_to, call_all_to_all", "src/utils/transpose.hpp: transpose_layout"]}
{"id": "C04", "title": "transpose_layout keeps the value at every multi-index", "statement": "transpose_layout copies a field into a field with the same dimensions in another order such that the value at every multi-index is unchanged, for up to six dimensions in one sweep and for seven or more with the outer loop split off.", "quantifier": "all ranks (numbers of dimensions), all permutations, all extents, all contents", "why_tests_cant": "Values agree for each multi-index only if the loops cover the full range exactly; tests sample a few shapes.", "anchors": ["src/utils/transpose.hpp: transpose_layout"]}
{"id": "C05", "title": "Runge-Kutta steppers have their advertised order on linear and quadrature problems", "statement": "For a linear right-hand side y' = A y, one step of Euler, RK2, RK3, RK4 multiplies the state by the Taylor polynomial of exp(dt A) of degree 1, 2, 3, 4 respectively; for a right-hand side depending on time only as a polynomial of degree below the order the step is the exact integral.", "quantifier": "all vector spaces, all linear operators, all states and time steps", "why_tests_cant": "Convergence tests measure a slope on one problem; the order statement quantifies over every linear problem and step.", "anchors": ["src/timestepper/euler.hpp", "src/timestepper/rk2.hpp", "src/timestepper/rk3.hpp", "src/timestepper/rk4.hpp"]}
{"id": "C06", "title": "Steppers preserve equilibria and linear invariants", "statement": "If the derivative vanishes at y then one step of any explicit stepper and of Crank-Nicolson leaves y unchanged; if a linear functional annihilates the derivative at every state then its value is unchanged by a step.", "quantifier": "all derivative functions, states, time steps and linear functionals", "why_tests_cant": "It is a statement about every right-hand side function.", "anchors": ["src/timestepper/*.hpp: update"]}
{"id": "C07", "title": "Crank-Nicolson fixed point iteration terminates and means what it says", "statement": "CrankNicolson::update performs at least one and at most max(1,max_counter) iterations; when it stops by convergence the last increment was below the relative tolerance, and if the last iterate did not move then the returned state satisfies y1 = y0 + dt/2 (f(y0)+f(y1)). If the derivative is Lipschitz with constant L and q = |dt| L / 2 < 1, the equation has exactly one solution, each pass reduces the distance to it by the factor q, an exit by convergence leaves at most q/(1-q) times the tolerance times the norm of the previous iterate, and, if the solution is not zero, the loop is left by convergence after a number of passes that does not depend on the limit. (Shown: with q = 1 it may use every pass it is allowed and return a state far from the solution.)", "quantifier": "all derivative functions, initial states, tolerances and iteration limits", "why_tests_cant": "Termination and the meaning of the stopping test quantify over all derivative functions.", "anchors": ["src/timestepper/crank_nicolson.hpp: update"]}
{"id": "C08", "title": "Onion patch locator returns the patch containing the point", "statement": "OnionPatchLocator returns the index of the unique patch whose radial interval contains the radius (half open at the upper end except for the last patch), and distinct negative codes if and only if the radius is below the first or above the last patch.", "quantifier": "all numbers of patches, all contiguous radius tables, all radii", "why_tests_cant": "The binary search must be right for every number of patches and every radius, including the interface values.", "anchors": ["src/multipatch/connectivity/onion_patch_locator.hpp: operator(), set_and_check_radii"]}
{"id": "C09", "title": "Edge coordinate transformation is an inverse pair", "statement": "EdgeTransformation maps the end points of one edge to the end points of the other according to the orientation, is strictly monotone, and transforming to the other edge and back returns the original coordinate; on an edge of a periodic dimension, where the two ends are the same point, this holds on the half-open edge.", "quantifier": "all edge intervals, both orientations, all coordinates", "why_tests_cant": "Round-trip identity for each real coordinate and interval.", "anchors": ["src/multipatch/connectivity/edge_transformation.hpp: transform_edge_coord"]}
{"id": "C10", "title": "Matching of uniform interface grids finds exactly the coinciding points", "statement": "On two uniform edges with n1 and n2 cells, the matching test accepts an index of one edge if and only if some grid point of the other edge has the same (transformed) coordinate, and the index returned is that point (exact arithmetic); in binary64 arithmetic the test accepts the same indices and the index returned is that point whenever the quotient of the cell counts is a double (equal counts, coarser target, target finer by a power of two), and otherwise that point or its neighbour towards the start of the current edge.", "quantifier": "all cell counts, indices and orientations", "why_tests_cant": "The gcd criterion must be right for every pair of cell counts; the implementation uses floating point division whose truncation is wrong for some sizes no test tries.", "anchors": ["src/multipatch/connectivity/edge_transformation.hpp: search_for_match, is_match_available"]}
{"id": "C11", "title": "Dichotomy search on a non-uniform edge finds the enclosing or matching index", "statement": "The dichotomy used on non-uniform edges terminates and returns an index whose coordinate matches the target whenever one exists, for a target grid of at least one cell that covers its edge (a periodic target facing a periodic edge); any index it returns matches within 1e-14.", "quantifier": "all strictly increasing grids and target coordinates", "why_tests_cant": "Termination and correctness over all grids.", "anchors": ["src/multipatch/connectivity/edge_transformation.hpp: get_target_idx"]}
{"id": "C12", "title": "Multipatch connectivity queries follow the interface graph", "statement": "Following a dimension across interfaces, the collected grids are without repetition, in the order of the walk and exactly those reachable along the direction; the collected interfaces are exactly those touching them; the walk stops at an outer edge or when a periodic cycle closes. Interfaces are listed once, oriented in the direction of the walk, if interfaces join front edges to back edges. (Shown: on a closed ring whose interfaces join two front edges and two back edges each interface is listed twice, once in each order.) The static assertion accepts a collection exactly when all four edges of every patch are present, so no walk misses an opposite edge; an edge present in two interfaces is not detected (shown).", "quantifier": "all well-formed sets of interfaces (each edge in exactly one interface), all starting edges", "why_tests_cant": "The recursion is over arbitrary patch graphs.", "anchors": ["src/multipatch/connectivity/connectivity_details.hpp", "src/multipatch/connectivity/connectivity.hpp"]}
{"id": "C13", "title": "Trapezoid coefficients integrate affine functions exactly", "statement": "On any grid, the trapezoid coefficients integrate every affine function exactly over the grid interval (constants over the full period for periodic grids), they are positive on increasing grids and sum to the interval length.", "quantifier": "all grid sizes, all increasing grids, all affine functions", "why_tests_cant": "Unbounded grid sizes and arbitrary spacing.", "anchors": ["src/quadrature/trapezoid_quadrature.hpp: trapezoid_quadrature_coefficients_1d"]}
{"id": "C14", "title": "Simpson coefficients integrate quadratics exactly and reject wrong sizes", "statement": "With an odd number n >= 3 of points (even n >= 4 if periodic) the Simpson coefficients integrate the piecewise parabola through the values, hence every polynomial of degree two exactly on any increasing non-uniform grid and cubics when the two cells of each pair are equal; the other parity raises an error. simpson_trapezoid is the Simpson rule with an odd number of points and, with an even number n >= 4, the area of the trapezoid over the first or last cell plus the Simpson rule on the other points, so it integrates affine functions exactly. (Shown: one point, two periodic points, and two points in simpson_trapezoid pass the check and run into undefined behaviour.)", "quantifier": "all grid sizes, all increasing grids, all values and polynomials", "why_tests_cant": "Unbounded grid sizes, arbitrary spacing; boundary sizes (1 or 2 points) exercise paths tests do not.", "anchors": ["src/quadrature/simpson_quadrature.hpp"]}
{"id": "C15", "title": "Composite Gauss-Legendre rule inherits the reference rule's exactness", "statement": "If the tabulated reference rule on [-1,1] integrates polynomials of degree <= m exactly then the rule built on any break points integrates every polynomial of degree <= m exactly over the whole interval; the quadrature points lie inside their cells in increasing order.", "quantifier": "all numbers of cells, all increasing break points, all polynomials of degree <= m", "why_tests_cant": "Unbounded cells and arbitrary polynomials.", "anchors": ["src/quadrature/gauss_legendre_integration.hpp: GaussLegendre"]}
{"id": "C16", "title": "Multi-dimensional quadrature is the iterated quadrature", "statement": "The coefficients of the tensor product quadrature are the products of one-dimensional coefficients, so the N-D quadrature of a field equals the iterated 1-D quadratures; the batched quadrature visits every index once.", "quantifier": "all numbers of dimensions, extents, coefficients and fields", "why_tests_cant": "Fubini for each shape and the linear-index decoding for every extent.", "anchors": ["src/quadrature/quadrature_coeffs_nd.hpp", "src/quadrature/quadrature.hpp"]}
{"id": "C17", "title": "Lagrange basis reproduces polynomials", "statement": "For distinct knots the values returned by the non-uniform Lagrange basis at any coordinate, and by the uniform basis at any coordinate inside the stencil (a periodic coordinate below it is shifted by one period), reproduce every polynomial of degree <= d; they sum to one and are a Kronecker delta at the knots. A coordinate closer to a knot than the tolerance of the code is treated as that knot.", "quantifier": "all degrees, all distinct knots, all coordinates, all polynomials of degree <= d", "why_tests_cant": "It is a polynomial identity over all knots and coordinates.", "anchors": ["src/interpolation/lagrange_basis_uniform.hpp: eval_basis", "src/interpolation/lagrange_basis_non_uniform.hpp: eval_basis"]}
{"id": "C18", "title": "Lagrange basis derivatives are the derivatives of the basis", "statement": "eval_basis_and_n_derivs returns the derivatives of the Lagrange basis polynomials up to the degree, off the knots and on them (a coordinate closer to a knot than the tolerance of the code is treated as that knot), and its loop over combinations ends.", "quantifier": "all degrees, distinct knots, coordinates and derivative orders", "why_tests_cant": "The off-knot combination enumeration and the on-knot recursion must agree for each degree and order.", "anchors": ["src/interpolation/lagrange_basis_non_uniform.hpp: eval_basis_and_n_derivs"]}
{"id": "C19", "title": "Lagrange evaluator picks a valid stencil around the point", "statement": "For any coordinate in the domain the stencil chosen has d+1 knots all inside the stored coefficients, contains the cell of the coordinate (non-periodic domains clamp it at the ends, periodic domains shift the coordinate by one period) so the evaluation is exact on polynomials of degree <= d.", "quantifier": "all grids with at least d+1 knots (periodic: at least d+1 cells), all degrees, all coordinates in the domain, periodic and not; with d periodic cells, which the size check accepts, the builder reads out of range (shown)", "why_tests_cant": "Boundary clamps for all degrees/grid sizes.", "anchors": ["src/interpolation/lagrange_evaluator.hpp: find_stencil, getclosest, eval"]}
{"id": "C20", "title": "Block (corner) matrix solve solves the system", "statement": "When the banded block and the Schur complement are invertible, solve_inplace of Matrix_Corner_Block overwrites b with the x such that A x = b, and solve_transpose_inplace with the x such that A^T x = b.", "quantifier": "all block sizes, all matrices with invertible blocks, all right-hand sides", "why_tests_cant": "Algebraic identity over all sizes and entries.", "anchors": ["src/matrix_tools/matrix_corner_block.cpp: factorise, solve_inplace, solve_transpose_inplace"]}
{"id": "C21", "title": "Periodic banded matrices store and solve the periodic banded matrix", "statement": "For Matrix_Periodic_Banded get_element returns the last value set at each in-band (cyclic) position and zero outside, distinct positions do not alias, and solve_inplace solves the system of the matrix that get_element describes.", "quantifier": "all sizes n and bandwidths kl, ku with n >= 2 max(kl,ku) + 1 or n = 2 kl = 2 ku (the factory uses this class for no other sizes, C26) with a non-singular leading block of size n - max(kl,ku), all sequences of set_element calls and right-hand sides", "why_tests_cant": "Index compression of the corner block must be injective for all sizes and bandwidths.", "anchors": ["src/matrix_tools/matrix_periodic_banded.cpp"]}
{"id": "C22", "title": "Centre block matrices are corner block matrices up to a permutation", "statement": "Matrix_Centre_Block reads and writes element (i,j) of the original ordering, and solve_inplace solves the system in the original ordering, for any sizes of the blocks with the top block not larger than the centre. (Shown: a larger top block makes the swap copy between overlapping ranges, undefined behaviour; the solve for several right-hand sides accesses memory outside of its arrays.)", "quantifier": "all top/bottom/central block sizes, entries and right-hand sides", "why_tests_cant": "Permutation consistency for every split of the indices.", "anchors": ["src/matrix_tools/matrix_centre_block.cpp: adjust_indexes, swap_array_to_corner, swap_array_to_centre"]}
{"id": "C23", "title": "Tridiagonal batch solver solves every system of the batch", "statement": "MatrixBatchTridiag::solve (Thomas algorithm) overwrites each right-hand side with the solution of its own tridiagonal system whenever no pivot vanishes, and no pivot vanishes for strictly diagonally dominant matrices.", "quantifier": "all sizes, batch sizes, coefficients and right-hand sides", "why_tests_cant": "Induction over the size.", "anchors": ["src/matrix_tools/matrix_batch_tridiag.hpp: solve, check_stability"]}
{"id": "C24", "title": "Banded, dense and symmetric storage behave as matrices", "statement": "get_element after set_element returns the stored value at that position and leaves all other positions unchanged, out-of-band positions read as zero, and the stored array is the LAPACK layout of the matrix.", "quantifier": "all sizes, bandwidths, positions and histories of set_element", "why_tests_cant": "Injectivity of the index map for all sizes.", "anchors": ["src/matrix_tools/matrix_banded.cpp", "src/matrix_tools/matrix_dense.cpp", "src/matrix_tools/matrix_pds_tridiag.cpp"]}
{"id": "C25", "title": "COO to CSR conversion preserves the matrix of every batch", "statement": "convert_coo_to_csr yields row pointers, column indices and values that represent, for the first matrix of the batch, the matrix of the input triplets in any order, and for every matrix of the batch if the triplets are sorted by row. (Shown: with triplets not sorted by row the matrices after the first one are wrong, and the sorting of columns in setup_solver moves the values of the first matrix only.)", "quantifier": "all sizes, all triplet lists, all batch sizes", "why_tests_cant": "Sorting and offsets for all triplet orders.", "anchors": ["src/matrix_tools/matrix_batch_csr.hpp: convert_coo_to_csr"]}
{"id": "C26", "title": "Matrix factories choose a representation able to hold the requested matrix", "statement": "make_new_banded, make_new_periodic_banded and make_new_block_with_banded_region return a representation which holds every matrix of the requested shape (banded, cyclically banded, banded centre between two dense blocks, banded leading block followed by one dense block), whatever the order in which its elements are set, and solves with it. (Shown: with block2_size = 0 the documentation places the dense block before the banded region; such a matrix is silently truncated.)", "quantifier": "all sizes, bandwidths, block sizes and matrices whose banded block is non-singular (positive definite where requested; top block not larger than the centre)", "why_tests_cant": "Case analysis over all size/bandwidth relations.", "anchors": ["src/matrix_tools/matrix.cpp: make_new_banded, make_new_periodic_banded, make_new_block_with_banded_region"]}
{"id": "C27", "title": "Integer and small-matrix helpers", "statement": "ipow is the mathematical power for all exponents (negative ones as the inverse); factorial is n! modulo 2^64, hence n! exactly up to n = 20 and not beyond; modulo returns the representative in [0,n) for 32-bit arguments although the quotient is rounded; neg_1_pow is the power of -1 for non-negative exponents and 3 for negative odd ones; sum is the sum of the sub-range; determinant and inverse of 2x2 and 3x3 tensors are the mathematical ones (inverse times matrix is the identity when the determinant is non-zero).", "quantifier": "all bases, exponents, integers and matrices", "why_tests_cant": "Universally quantified algebraic identities.", "anchors": ["src/math_tools/math_tools.hpp"]}
{"id": "C28", "title": "Central finite differences are exact on quadratics", "statement": "CentralFDMPartialDerivative returns the exact derivative of every quadratic polynomial at every point of a non-uniform non-periodic grid of at least three points, both ends included; on periodic grids every point, ends included, gets the centred formula on the periodic extension, which commutes with cyclic shifts on uniform grids; the variant with boundary values averages the two decentred formulas at the ends and equals the plain one inside.", "quantifier": "all grid sizes, all non-uniform grids, all quadratics", "why_tests_cant": "All spacings and sizes.", "anchors": ["src/math_tools/central_fdm_partial_derivatives.hpp"]}
{"id": "C29", "title": "Discrete norms are norms", "statement": "norm_inf, norm_L1 and norm_L2 are non-negative, homogeneous, satisfy the triangle inequality, and norm_inf bounds each entry.", "quantifier": "all fields and non-negative quadrature coefficients", "why_tests_cant": "Universal inequality.", "anchors": ["src/math_tools/l_norm_tools.hpp"]}
{"id": "C30", "title": "Circular mapping and its inverse are mutually inverse", "statement": "CartesianToCircular after CircularToCartesian returns (r,theta) for r>0 and theta in [0,2pi), the other composition returns (x,y) everywhere, and the returned angle always lies in [0,2pi).", "quantifier": "all real coordinates, all centres", "why_tests_cant": "Transcendental identities over all reals.", "anchors": ["src/coord_transformations/circular_to_cartesian.hpp", "src/coord_transformations/cartesian_to_circular.hpp"]}
{"id": "C31", "title": "Jacobians are the derivatives of the mappings", "statement": "For every analytical coordinate transformation the Jacobian matrix returned is the matrix of partial derivatives of the mapping, jacobian() is its determinant, and the inverse Jacobian matrix is its inverse wherever it is non-singular.", "quantifier": "all coordinates in the domain and all mapping parameters", "why_tests_cant": "Calculus identity over a continuum.", "anchors": ["src/coord_transformations/*.hpp: jacobian_matrix, jacobian, inv_jacobian_matrix, jacobian_component"]}
{"id": "C32", "title": "Czarny mapping and its inverse are mutually inverse", "statement": "CartesianToCzarny and CzarnyToCartesian are mutually inverse for admissible epsilon and elongation: (r,theta) with r > 0 and theta in [0,2 pi) inside the domain is recovered from (x,y), and every point with -1 < epsilon (x - x0) <= 1 is recovered from its computed (r,theta); the angle returned lies in [0,2 pi) and the O-point is that of the documentation.", "quantifier": "all admissible parameters and coordinates", "why_tests_cant": "Continuum of parameters.", "anchors": ["src/coord_transformations/czarny_to_cartesian.hpp", "src/coord_transformations/cartesian_to_czarny.hpp"]}
{"id": "C33", "title": "Barycentric and linear coordinate changes are bijections", "statement": "BarycentricToCartesian and CartesianToBarycentric are mutually inverse for a non-degenerate triangle and barycentric coordinates sum to one; LinearCoordinateTransform is inverted by get_inverse_mapping.", "quantifier": "all non-degenerate triangles, all points; all slopes and origins", "why_tests_cant": "Continuum.", "anchors": ["src/coord_transformations/barycentric_to_cartesian.hpp", "src/coord_transformations/cartesian_to_barycentric.hpp", "src/coord_transformations/linear_coord_transform.hpp"]}
{"id": "C34", "title": "Toroidal and cylindrical mappings compose", "statement": "CylindricalToCartesian and CartesianToCylindrical are mutually inverse for R>0; ToroidalToCylindrical keeps the poloidal mapping and negates the angle with determinant minus the poloidal one; the Jacobian of a combined mapping is the product of the Jacobians.", "quantifier": "all coordinates and curvilinear mappings", "why_tests_cant": "Continuum and arbitrary inner mapping.", "anchors": ["src/coord_transformations/cylindrical_to_cartesian.hpp", "src/coord_transformations/cartesian_to_cylindrical.hpp", "src/coord_transformations/toroidal_to_cylindrical.hpp", "src/coord_transformations/combined_mapping.hpp"]}
{"id": "C35", "title": "Metric tensors and vector transfers are consistent", "statement": "The metric tensor is symmetric, its inverse() is its matrix inverse, moving a vector between co- and contravariant components or between coordinate systems and back returns it, and the scalar product is unchanged.", "quantifier": "all invertible Jacobian matrices and vectors of any dimension", "why_tests_cant": "Universal linear algebra.", "anchors": ["src/coord_transformations/metric_tensor_evaluator.hpp", "src/coord_transformations/vector_mapper.hpp: to_vector_space"]}
{"id": "C36", "title": "Tensor indexing is a bijection with storage", "statement": "The position of an element of a static tensor and the element at a position are inverse maps, so distinct index combinations never share storage and every storage slot is reachable.", "quantifier": "all ranks and index set sizes", "why_tests_cant": "Mixed radix identity for all ranks/sizes.", "anchors": ["src/data_types/tensor_index_tools.hpp: TensorIndexElement::index, GetNthTensorIndexElement"]}
{"id": "C37", "title": "tensor_mul is Einstein summation", "statement": "tensor_mul of indexed tensors returns the sum over repeated indices of the product of elements, in the order of non-repeated indices.", "quantifier": "all numbers of tensors, ranks, index patterns in which every index occurs once or twice, and entries", "why_tests_cant": "All index patterns.", "anchors": ["src/data_types/indexed_tensor.hpp: tensor_mul"]}
{"id": "C38", "title": "Levi-Civita parity is the sign of the permutation", "statement": "The permutation parity of a list of indices with respect to an ordered set is the sign of the permutation and 0 if an index repeats; swapping two indices negates it.", "quantifier": "all lengths and index lists", "why_tests_cant": "All permutations of all sizes.", "anchors": ["src/utils/type_seq_tools.hpp: GetPermutationParity", "src/data_types/static_tensors.hpp: LeviCivitaTensor"]}
{"id": "C39", "title": "Inter-species collisions exchange momentum and energy without creating any", "statement": "CollisionsInter adds to the two distributions sources that carry no particles, whose mass-weighted momenta cancel and whose energies cancel (velocity integrals of the formulas used); the two cross collision frequencies satisfy m_e n_e nu_ei = m_i n_i nu_ie so that the ion terms are the electron formulas with the species exchanged; friction dissipates, heat flows to the colder species, and equal velocities and temperatures are a fixed point of the step.", "quantifier": "all densities, velocities, temperatures, masses and collision frequencies", "why_tests_cant": "Algebraic identity on all states.", "anchors": ["src/geometryXVx/rhs/collisions_utils.cpp: compute_nustar_profile, compute_collfreq_ab, compute_momentum_energy_exchange", "src/geometryXVx/rhs/collisions_inter.cpp: get_derivative, operator()"]}
{"id": "C40", "title": "Constant Krook source relaxes towards its target", "statement": "KrookSourceConstant leaves the target unchanged, two successive steps equal one step of the summed duration, and for non-negative amplitude and mask the distance to the target never grows.", "quantifier": "all distributions, amplitudes, masks and time steps", "why_tests_cant": "Universal over states and steps.", "anchors": ["src/geometryXVx/rhs/krook_source_constant.cpp: operator()"]}
{"id": "C41", "title": "Adaptive Krook source conserves the local charge", "statement": "The time derivative used by KrookSourceAdaptive changes ion and electron density at the same rate for every state; one step conserves density_ion - density_electron at a position exactly when the source is inactive there, the ion density is on target or the plasma was neutral there (the documented unconditional local charge conservation is false for the step as coded).", "quantifier": "all distribution functions, time steps, masks and amplitudes", "why_tests_cant": "A test compares one state; the claim is for every state.", "anchors": ["src/geometryXVx/rhs/krook_source_adaptive.cpp: get_amplitudes, get_derivative, operator()"]}
{"id": "C42", "title": "Masks are between zero and one and normalise to one", "statement": "mask_tanh raises an error exactly for non-positive stiffness or extent outside [0,0.5]; for extent in (0,0.5] values lie in [0,1] before normalisation and the inverted mask is one minus the normal one; for extent in (0,0.5) the normal mask is symmetric about the middle of the domain and decreases with the distance to it, and the normalised mask has unit quadrature integral. The accepted extents 0 and 0.5 are degenerate (zero mask).", "quantifier": "all grids, extents and stiffnesses", "why_tests_cant": "Inequalities over the reals.", "anchors": ["src/geometryXVx/rhs/mask_tanh.cpp: mask_tanh"]}
{"id": "C43", "title": "Intra-species collision step solves the Crank-Nicolson system", "statement": "CollisionsIntra returns f1 with f1 - f0 = dt/2 (C f0 + C f1) at every velocity point, C being the finite difference form of d/dv (D df/dv - Nu f) (parabola through three points, fluxes at half points, any increasing grid, ghost values at the ends); on uniform grids the mass changes only through the end fluxes, and a Peclet condition makes the linear system solvable; if moreover dt (D_{k-1/2} + D_{k+1/2}) <= 2 h^2, a non-negative distribution stays non-negative (with larger time steps it need not).", "quantifier": "all velocity grids, collision coefficients, time steps and distributions", "why_tests_cant": "All grid sizes and states.", "anchors": ["src/geometryXVx/rhs/collisions_intra.cpp: compute_matrix_coeff, compute_rhs_vector"]}
{"id": "C44", "title": "Charge density accounts for every species", "statement": "The 2D2V ChargeDensityCalculator returns the velocity integral of the charge-weighted sum of kinetic distributions plus the charge of the adiabatic species when one exists; the 1D1V one does so exactly when no charged adiabatic species exists, and the parallel one equals the serial one exactly for one rank or without charged adiabatic species (both deviations are defects).", "quantifier": "all species sets, distributions, quadratures and rank counts", "why_tests_cant": "Depends on configurations (adiabatic species, many ranks) not present in the tests.", "anchors": ["src/geometryXVx/poisson/chargedensitycalculator.cpp", "src/geometryXYVxVy/poisson/chargedensitycalculator.cpp", "src/geometryXYVxVy/poisson/mpichargedensitycalculator.cpp"]}
{"id": "C45", "title": "Operator splitting is symmetric and consistent", "statement": "The Vlasov splittings (1D1V, 2D2V, serial and MPI) apply sub-steps such that every sub-operator acts for a total time dt, in a palindromic sequence (a step dt followed by a step -dt is the identity for reversible sub-operators), and are second-order accurate for exponential sub-flows; the MPI solver gives the serial result for every distribution of the points. SplitRightHandSideSolver also applies every source for a total time dt, and equals the documented symmetric splitting when the sources commute; with two sources it is in general not symmetric, since its second pass runs in the same order although the documentation says reversed (shown).", "quantifier": "all sub-operators, states and time steps", "why_tests_cant": "Quantifies over all operators.", "anchors": ["src/geometryXVx/boltzmann/splitvlasovsolver.cpp", "src/geometryXVx/boltzmann/splitrighthandsidesolver.cpp", "src/geometryXYVxVy/vlasov/splitvlasovsolver.cpp", "src/geometryXYVxVy/vlasov/mpisplitvlasovsolver.cpp"]}
{"id": "C46", "title": "Time loops output consistent states and can be restarted", "statement": "Each time loop (1D1V, 2D2V, Cartesian guiding-centre, polar explicit, polar implicit, polar RK2) returns the state after n steps and emits for every k an output event with iteration number k and the density after k steps with its potential, at time start + k*dt; running n then m steps from the saved state gives the state of n+m steps. Two exceptions are shown: the events of the polar RK2 loop carry the time (k-1)*dt, and on a device the last event of the implicit polar loop carries the density of the step before.", "quantifier": "all step counts, time steps, initial states and solvers", "why_tests_cant": "Universal over the number of steps; tests look at the final state only.", "anchors": ["src/geometryXVx/time_integration/predcorr.cpp", "src/geometryXYVxVy/time_integration/predcorr.cpp", "src/geometryXY/time_integration/predcorr_RK2.hpp", "src/geometryRTheta/time_solver/*.hpp"]}
{"id": "C47", "title": "What the second-order polar predictor-correctors compute", "statement": "The explicit polar scheme advects with (A^P(X^n)+A^P(X^P))/2, and the implicit scheme's predictor with A^n(X^P); these differ from the documented (A^P(X^n)+A^n(X^P))/2 and (A^n(X^n)+A^n(X^P))/2 (the explicit one agrees for stationary fields), and the explicit scheme is only first-order accurate on a test system on which the documented one is second-order. The implicit feet loop always ends after 1 to 50 passes with the k-th iterate of the fixed-point map and, unless it used all passes, no foot moved by more than the tolerance in the last one.", "quantifier": "all operators, fields, states, tolerances and time steps; the refutations by concrete systems", "why_tests_cant": "Data-flow property for all operators.", "anchors": ["src/geometryRTheta/time_solver/bsl_predcorr_second_order_explicit.hpp", "src/geometryRTheta/time_solver/bsl_predcorr_second_order_implicit.hpp"]}
{"id": "C48", "title": "Species initialisation appends exactly the missing adiabatic species", "statement": "init_species keeps kinetic species first in order, then the neutral fluid species, and appends exactly one adiabatic species of charge -1 if no kinetic species is an electron, of charge +1 if all are electrons, none otherwise; without kinetic species it raises an error. ielec() designates the last species of charge -1, or an error is raised exactly when there is none. (Shown: with adiabatic electrons mass(ielec()) is out of range.)", "quantifier": "all lists of kinetic and fluid species", "why_tests_cant": "All configurations.", "anchors": ["src/speciesinfo/species_init.cpp: init_all_species", "src/speciesinfo/species_info.hpp: SpeciesInformation::Impl"]}
{"id": "C49", "title": "Periodic coordinates are brought back to the index range", "statement": "restrict_to_idx_range returns a coordinate inside the domain that differs from the input by an integer number of periods, for every finite coordinate, and terminates.", "quantifier": "all coordinates, domain starts and lengths", "why_tests_cant": "Continuum; the code switches algorithm far from the domain.", "anchors": ["src/utils/ddc_helper.hpp: restrict_to_idx_range, restrict_to_bspline_domain"]}
{"id": "C50", "title": "Break points are increasing with the requested ends", "statement": "build_uniform_break_points and build_random_non_uniform_break_points return n+1 strictly increasing points starting at min and ending at max (random: for non-uniformity in [0,1); for the default value 1 they are non-decreasing and may coincide, shown).", "quantifier": "all bounds, cell counts and random draws", "why_tests_cant": "All random outcomes.", "anchors": ["src/utils/mesh_builder.hpp"]}
{"id": "C51", "title": "User supplied interpolation points are accepted only if the spline problem is not overconstrained", "statement": "NonUniformInterpolationPoints::get_sampling raises an error if the number of points is wrong, and reports an overconstrained cell only if some cell contains more than degree+1 points; it reports every such cell when each cell before the last point contains a point in its interior. (Shown: an overconstrained cell after an empty one is missed.) Without boundary equations a refusal as overconstrained is always right: there are values at these points which no spline takes; hence points each inside the support of its B-spline, for instance the Greville points, are always accepted. (Shown: an accepted list, even without an overconstrained cell, can make the spline problem singular.) The uniform sampling accepts exactly the points within the tolerance of the uniform grid.", "quantifier": "all sorted point lists, break points and degrees", "why_tests_cant": "All point distributions.", "anchors": ["src/utils/non_uniform_interpolation_points.hpp: get_sampling"]}
{"id": "C52", "title": "1D finite element Poisson solver returns the Galerkin solution", "statement": "FEM1DPoissonSolver returns the spline satisfying the discrete weak form against every test spline, with zero boundary values (non periodic) or zero mean and the mean of rho removed (periodic). The electric field it gives is the best approximation, in the quadrature norm, of the exact field among the slopes of all admissible splines, up to the error of the quadrature in the weak form (Cea-Strang), and it is bounded by the density (Poincare).", "quantifier": "all numbers of cells, degrees, right-hand sides", "why_tests_cant": "All sizes and inputs; assembly index wrap-around.", "anchors": ["src/pde_solvers/fem_1d_poisson_solver.hpp"]}
{"id": "C53", "title": "FFT Poisson solver inverts the Laplacian mode by mode", "statement": "FFTPoissonSolver returns the values of a trigonometric polynomial phi of mean zero with -Laplacian phi = rho - mean(rho) at the grid points, and an electric field which is minus its gradient along the last dimension and along every dimension with an odd number of points; the discrete transforms on the half mesh are mutually inverse on real data. The solver is symmetric; the electrostatic energy sum(rho phi) is non-negative, zero only for uniform densities, and equals sum |E|^2 for odd numbers of points; potential and field are bounded by the deviation of the density times powers of L/2pi, independently of the numbers of points. (Shown: along another dimension with an even number of points the field is wrong at the Nyquist mode.)", "quantifier": "all numbers of dimensions, grid sizes, spacings and right-hand sides", "why_tests_cant": "All modes and sizes.", "anchors": ["src/pde_solvers/fft_poisson_solver.hpp"]}
{"id": "C54", "title": "Semi-Lagrangian advection by a constant is exact translation", "statement": "When the interpolation is exact, BslAdvection1D with constant advection speed replaces f by its translate by c*dt for any Runge-Kutta stepper; spatial advection moves by sqrt(me/ms) v dt and velocity advection by charge*sqrt(me/ms) E dt.", "quantifier": "all functions, speeds and time steps, all steppers", "why_tests_cant": "All fields.", "anchors": ["src/advection/bsl_advection_1d.hpp", "src/advection/bsl_advection_x.hpp", "src/advection/bsl_advection_vx.hpp"]}
{"id": "C55", "title": "Triangular Bernstein basis is a partition of unity", "statement": "For degrees D up to 20 the (D+1)(D+2)/2 triangular Bernstein polynomials evaluated at any point are the terms of the expansion of (a+b+c)^D in the order of the loops: they sum to one, are non-negative inside the triangle and reproduce the corners. For degree 21 the 64-bit factorials overflow and the sum is not one (shown).", "quantifier": "all degrees up to 20, all non-degenerate triangles and points", "why_tests_cant": "All degrees.", "anchors": ["src/interpolation/polar_splines/bernstein.hpp: eval_basis"]}
{"id": "C56", "title": "Type sequence utilities", "statement": "Unique keeps exactly one copy of each tag, concatenation, range and duplicate have the expected elements, and insertion of MPI tags puts each tag immediately before the dimension it splits; the adjacency test recognises exactly consecutive dimensions. (Shown: get_first_t fails for lists whose head does not satisfy the condition.)", "quantifier": "all tag lists", "why_tests_cant": "All list lengths.", "anchors": ["src/utils/type_seq_tools.hpp", "src/mpi_parallelisation/mpitools.hpp"]}
{"id": "C57", "title": "Fluid moments are consistent", "statement": "Density, mean velocity and temperature computed from a distribution satisfy the discrete moment identities: temperature from the centred and raw formulas agree, scaling the distribution scales the density only, and shifting velocities shifts the mean only; temperature is non-negative for non-negative distributions.", "quantifier": "all grids, quadratures and distributions with non-zero density", "why_tests_cant": "All states.", "anchors": ["src/geometryXVx/utils/fluid_moments.cpp", "src/geometryXVx/rhs/collisions_inter.cpp"]}
{"id": "C58", "title": "Gyroaverage is linear and preserves constants", "statement": "At every point except on the last poloidal line the gyroaverage is the mean of the interpolant over equally spaced points of the Larmor circle; it is linear, preserves constants and bounds, affine functions with two gyro points and gives the exact mean of quadratic functions with three, more generally of all polynomials of total degree less than the number n of gyro points; for other functions the error is at most the interpolation error plus twice the distance to these polynomials, hence O(rho^n) for functions with n bounded derivatives. On the last poloidal line it is the value of the first line, which is wrong on a periodic grid, which does not hold its end point (shown).", "quantifier": "all radii, fields and numbers of gyro points", "why_tests_cant": "All fields.", "anchors": ["src/gyroaverage/gyroaverage_operator.hpp"]}
{"id": "C59", "title": "Command line parsing starts from the requested iteration or fails", "statement": "parse_executable_arguments returns only for 'prog file' (start iteration 0) and 'prog --iter-restart i file' (start iteration: the number that i begins with) with a file ending in .yaml or .yml; 'prog --dump-config file' writes the configuration; any other command line terminates the program with a failure. (Shown: a negative restart iteration is accepted, and text that is not a number means iteration 0.)", "quantifier": "all argument vectors", "why_tests_cant": "All argument vectors.", "anchors": ["src/io/input.cpp: parse_executable_arguments"]}
{"id": "C60", "title": "Initial distributions stay positive", "statement": "SingleModePerturbInitialisation produces a distribution bounded below by 1e-60 whatever the perturbation, equal to the perturbed equilibrium wherever that exceeds the floor.", "quantifier": "all equilibria, modes, amplitudes and grids", "why_tests_cant": "All inputs.", "anchors": ["src/geometryXVx/initialisation/singlemodeperturbinitialisation.cpp"]}
{"id": "C63", "title": "Collision coefficients conserve momentum and energy", "statement": "The kernel velocity and temperature used by CollisionsIntra are the unique ones for which the discrete momentum and energy of the operator vanish; the derivative coefficient is the derivative of the diffusion coefficient at every velocity (other than the threshold below which the limit values are used), the diffusion coefficient is positive, does not increase with |v| and its value near v = 0 is the limit of the general formula.", "quantifier": "all distributions, temperatures, collision frequencies and velocities", "why_tests_cant": "Continuum of inputs, limits and derivatives.", "anchors": ["src/geometryXVx/rhs/collisions_utils.hpp: compute_Dcoll, compute_dvDcoll, compute_Vcoll_Tcoll, compute_Nucoll"]}
{"id": "C64", "title": "Kinetic source injects exactly the requested density and energy", "statement": "The velocity profile of KineticSource has zeroth moment density, zero momentum and second moment energy * temperature, is Maxwellian when density = energy, and with the normalised mask one step injects amplitude * density * dt particles in total; steps add up.", "quantifier": "all densities, energies, temperatures, masks and time steps", "why_tests_cant": "Integral identities over a continuum of parameters.", "anchors": ["src/geometryXVx/rhs/kinetic_source.cpp"]}
{"id": "C61", "title": "Conforming index slices list exactly the shared points of an interface", "statement": "MatchingIdxSlice gives, for each of the two edges of an interface, the slice of the indices whose points coincide with a point of the other edge, both slices having the same number of indices, for non-periodic uniform edges and for non-uniform edges of the same orientation, where it throws if these indices are not regularly spaced. (Shown: on periodic uniform edges the slices pair points that do not coincide, and on non-uniform edges of opposite orientation the second slice has one index only.)", "quantifier": "all numbers of points on both edges, all matchings, both orientations, periodic or not", "why_tests_cant": "Universal over grid sizes; the existing tests use a few sizes and one orientation.", "anchors": ["src/multipatch/connectivity/matching_idx_slice.hpp: MatchingIdxSlice, get_idx_step, get_idx_range_slice"]}
{"id": "C62", "title": "Independent coordinate transforms combine into a block transform", "statement": "OrthogonalCoordTransforms maps every coordinate with the transform it belongs to, its Jacobian matrix is block diagonal for any order of the argument and result tags, jacobian is the determinant of that matrix times the parity of the order of the argument tags with respect to the transforms (hence the determinant when they are listed in the same order, and of the wrong sign for odd rearrangements, shown), jacobian_component gives its entries for Cartesian arguments (it does not compile for curvilinear ones), and the inverse mapping undoes it; IdentityCoordinateChange copies coordinates in order with an identity Jacobian.", "quantifier": "all lists of transforms, all orders of the tags, all coordinates", "why_tests_cant": "Universal over tag orders and numbers of transforms; sign errors appear only for odd orders.", "anchors": ["src/coord_transformations/orthogonal_coord_transforms.hpp: OrthogonalCoordTransforms", "src/coord_transformations/identity_coordinate_change.hpp: IdentityCoordinateChange"]}
{"id": "C65", "title": "Equilibria have the density, velocity and temperature of the input file", "statement": "The equilibrium distributions (Maxwellians in 1D1V and 2D2V, bump on tail) have, as integrals over velocity space, the requested density, mean velocity and temperature (total density one for the bump on tail) and are positive; the (vpar, mu) Maxwellian has the requested mean velocity and parallel and perpendicular temperatures, and the requested number of particles if and only if the mass is 1 (refuted otherwise).", "quantifier": "all densities, mean velocities, temperatures, masses and magnetic fields", "why_tests_cant": "Integral identities over a continuum of parameters.", "anchors": ["src/geometryXVx/initialisation/maxwellianequilibrium.cpp", "src/geometryXVx/initialisation/bumpontailequilibrium.cpp", "src/geometryXYVxVy/initialisation/maxwellianequilibrium.cpp", "src/geometryVparMu/initialisation/maxwellianequilibrium.cpp"]}
{"id": "C66", "title": "Diocotron growth rate solves the documented dispersion relation", "statement": "get_frequency and get_slope return the real and imaginary part of the most unstable root of the documented dispersion relation when there is no inner wall, and of a relation with an exactly characterised discrepancy otherwise; the initial density is the equilibrium perturbed by at most eps, supported in the annulus, with l-fold symmetry.", "quantifier": "all walls, annuli, charges, modes and amplitudes accepted by the constructor", "why_tests_cant": "All parameters; tests use one configuration without inner wall.", "anchors": ["src/geometryRTheta/initialisation/diocotron_initialisation_equilibrium.cpp"]}
{"id": "C67", "title": "Vortex merger equilibrium iteration ends with a normalised solution", "statement": "find_equilibrium terminates after at most count_max iterations; the potential has maximum phi_max and solves the Poisson equation for the returned sigma; sigma stays proportional to its initial value and, unless all iterations were used, changed by at most tau in the last one; the density is sigma f(phi) with one value at the O-point.", "quantifier": "all grids, functions f, tolerances and linear positive solvers", "why_tests_cant": "Termination and invariants over all iterates.", "anchors": ["src/geometryRTheta/initialisation/vortex_merger_equilibrium.hpp", "src/geometryRTheta/initialisation/vortex_merger_initialisation.hpp"]}
{"id": "C68", "title": "Polar advection follows the characteristics and is single valued at the O-point", "statement": "The foot found for a grid point is, in the pseudo-physical plane, the point displaced by minus dt times the velocity (for every time stepper when the velocity is constant there); its theta coordinate lies in the periodic domain; all points of index r = 0 get one foot and one value; with dt = 0 the function is unchanged; the field at the O-point is the given central value or the mean over the first ring.", "quantifier": "all mappings with a right inverse, fields, time steppers, time steps and grids", "why_tests_cant": "Continuum of fields and points; the O-point is a singular case of the mapping.", "anchors": ["src/advection/spline_polar_foot_finder.hpp: SplinePolarFootFinder::operator(), unify_value_at_centre_pt", "src/advection/bsl_advection_polar.hpp: BslAdvectionPolar::operator()"]}
{"id": "C69", "title": "Polar B-splines: numbering, evaluation, smoothness at the O-point, integrals", "statement": "Polar and tensor product indices are mutually inverse; evaluating a polar spline (values and derivatives) gives the tensor product spline whose coefficients in the first rows are the Bernstein combinations of the singular coefficients, and reads no coefficient outside of the field; the basis is a partition of unity and non-negative; with continuity 0 the spline has one value at the O-point and with continuity 1 one physical gradient as well, and affine functions are reproduced; evaluation is periodic in theta; integrals() gives the integrals of the basis functions over the logical domain.", "quantifier": "all degrees, numbers of cells, control points, coefficients and evaluation points", "why_tests_cant": "Degrees, meshes, mappings and points are unbounded.", "anchors": ["src/interpolation/polar_splines/polar_bsplines.hpp: PolarBSplines", "src/interpolation/polar_splines/polar_spline_evaluator.hpp: PolarSplineEvaluator"]}
{"id": "C70", "title": "Gradient, curl and Lie-Poisson bracket are coordinate-free", "statement": "For any smooth 3D mapping with non-zero determinant (either orientation), the contravariant gradient built from the logical partial derivatives, pushed to Cartesian space, is the Cartesian gradient; Curl applied to the derivatives of the covariant components gives the contravariant components of the curl; LiePoissonBracket gives b.(grad f x grad g) with b the unit vector of B, is antisymmetric, bilinear, obeys Leibniz, depends only on the direction of B; norm(metric,v) is the Euclidean length. If the logical dimensions are Cartesian tags the Levi-Civita factor is the determinant instead of its inverse, so curl and bracket are wrong by det^2.", "quantifier": "all mappings twice differentiable at the point, all functions and vector fields differentiable there, all magnetic fields", "why_tests_cant": "Tests evaluate a few points of one tokamak mapping; the identity is over all mappings, fields and orientations.", "anchors": ["src/math_tools/gradient.hpp:Gradient", "src/math_tools/curl.hpp:Curl", "src/math_tools/lie_poisson_bracket.hpp:LiePoissonBracket", "src/math_tools/math_tools.hpp:norm", "src/data_types/static_tensors.hpp:LeviCivitaTensor"]}
{"id": "C71", "title": "Shared 2D spline coefficients belong to the field being differentiated", "statement": "For every history of compute_coeffs calls the cache holds the spline of the field last presented through the dimension of the very first call; hence a gradient creator sharing one cache gives both derivatives of every field of any sequence, while a field presented only through the other dimension is silently ignored (stale coefficients) and two derivative objects on one cache interfere.", "quantifier": "all call histories on one cache, all fields, all builders and evaluators", "why_tests_cant": "The test counts builder calls of one documented history; staleness depends on the whole history.", "anchors": ["src/math_tools/spline_builder_2d_cache.hpp:SplineBuilder2DCache", "src/math_tools/spline_2d_partial_derivative.hpp:Spline2DPartialDerivative", "src/math_tools/gradient_creator.hpp:GradientCreator"]}
{"id": "C72", "title": "Interface derivatives between two patches are those of the global spline", "statement": "For two patches glued at an edge, the coefficients of SingleInterfaceDerivativesCalculator recover the derivative at the interface of every C2 cubic spline over both patches from its values at the interpolation points and its derivatives at the outer ends (which are not needed on a patch with an additional interpolation point), for any increasing points, orientation of the edges and numbers of cells (at least three on patch 1), and for any number of chosen cells; with uniform points the closed formulas do the same if both cell lengths are equal. Accepted configurations for which it fails (two cells on patch 1, one cell, uniform patches of different cell lengths) are shown.", "quantifier": "all patches with increasing points, all extremities, all sizes, all global cubic splines", "why_tests_cant": "Tests use a few fixed meshes, with equal cell lengths in the uniform case; exactness must hold for every mesh and every spline.", "anchors": ["src/multipatch/interface_derivatives/single_interface_derivatives_calculator.hpp:SingleInterfaceDerivativesCalculator", "src/multipatch/interface_derivatives/single_interface_derivatives_calculator.hpp:get_function_coefficients"]}
{"id": "C73", "title": "Lagrange interpolation in several dimensions", "statement": "NDLagrangeEvaluator is the tensor product of its 1D evaluators: on product coefficients it gives the product of the 1D values (or derivatives), at the interpolation points it gives the coefficients, and inside the domain it reproduces every function that is a polynomial of degree at most the basis degree in each variable. NDIdentityInterpolationBuilder puts on every knot of the basis the value at the congruent interpolation point when at most one dimension is periodic. (Shown: with two periodic dimensions some coefficients are never written; outside of the domain the documented extrapolation rules are not applied: the evaluation does not terminate on a non-uniform grid and reads out of range on a uniform periodic grid.)", "quantifier": "every number of dimensions, degree, grid, coefficient array, point inside the domain, and subset of periodic dimensions", "why_tests_cant": "tests use 2D/3D with one function and one periodic dimension; the statement is for every number of dimensions, coefficients and point", "anchors": ["src/interpolation/nd_lagrange_evaluator.hpp: NDLagrangeEvaluator", "src/interpolation/nd_identity_interpolation_builder.hpp: NDIdentityInterpolationBuilder"]}
{"id": "C74", "title": "Polar-spline finite elements solve the weak Poisson-like equation", "statement": "PolarSplineFEMPoissonLikeAssembler builds a CSR matrix whose row pointers end at the number of allocated entries, whose kernels write every allocated entry exactly once (no race, no entry left out, none out of bounds, result independent of the order of the threads), whose rows list in increasing order exactly the basis functions sharing a cell with the function of the row, and whose values are the quadrature over the whole domain of alpha grad(Bi).g^-1 grad(Bj) + beta Bi Bj; it is symmetric and positive semi-definite. The right-hand side is the load vector. Hence any solution of that system, put in the spline by the solver, satisfies the weak form for all test functions and has zero outer boundary coefficients. For an elliptic problem (alpha > 0, beta >= 0, beta = 0 included, positive definite metric) the matrix is positive definite, so that there is exactly one solution, and this solution is the strict minimiser of the energy over the finite element space; for any function that solves the weak problem at the quadrature points (up to a residual kappa in the dual energy norm) the square of the error in the energy norm is at most that of any function of the space plus kappa^2, so that an exact solution in the space is reproduced and any other one is approximated as well as the space can; the singular functions built by the library are independent as needed. (Shown: with 2p+1 poloidal cells no tensor-tensor column is written; with fewer, writes go beyond the allocation.)", "quantifier": "every degree, continuity, numbers of radial and poloidal cells with at least 2p+2 poloidal cells, all coefficients, metric, basis values, right-hand sides and every order of the parallel writes", "why_tests_cant": "tests solve one equation on a few grids and compare with a tolerance; the structure of the matrix must be right for all sizes and the writes for all schedules", "anchors": ["src/pde_solvers/polar_spline_fem_poisson_like_assembler.hpp: PolarSplineFEMPoissonLikeAssembler", "src/pde_solvers/polar_spline_fem_poisson_like_solver.hpp: PolarSplineFEMPoissonLikeSolver"]}
{"id": "C75", "title": "Guiding-centre advection field is the drift of the potential", "statement": "For every smooth potential and mapping, AdvectionFieldFinder gives at every point with r > epsilon the drift (-d_y phi, d_x phi) on the physical axes; the field on the logical axes pushed to the physical ones is the same vector, its fluxes are the derivatives of the potential (no divergence, tangent to the isolines of phi); inside r <= epsilon the field goes linearly along each radius from the exact drift at the O-point to the exact drift at epsilon, and the separately returned centre value is the drift at the O-point. For a discrete mapping smooth at the O-point, the averaged pseudo-Cartesian inverse Jacobian is the exact inverse, for any number of poloidal points.", "quantifier": "all differentiable potentials, mappings with invertible Jacobian away from the O-point, points, epsilon > 0, numbers of poloidal points", "why_tests_cant": "tests compare one potential on a few grids with a tolerance", "anchors": ["src/geometryRTheta/advection_field/advection_field_rtheta.hpp: AdvectionFieldFinder", "src/coord_transformations/inv_jacobian_o_point.hpp: InvJacobianOPoint", "src/coord_transformations/discrete_poloidal_cs_spline_mapping.hpp: first_order_jacobian_matrix_r_rtheta"]}
{"id": "C76", "title": "Multipatch spline evaluation on an onion geometry", "statement": "For any number of rings, MultipatchSplineEvaluator2D gives at every point of the domain, and at any poloidal angle, the value (or derivatives) of the spline of the one patch that owns the radius (interfaces belong to the outer patch, the outer edge to the last one); outside it gives zero with the null rule, the value on the nearest edge with the constant rule, and derivatives abort. If the splines of neighbours agree on interfaces, the evaluated function is continuous on the whole domain and, with constant extrapolation, on all r >= 0. integrate gives the integral on each patch, and the multipatch norms are the maximum over all patches. (Shown: if the poloidal domains of the patches start at different angles, constant extrapolation evaluates the last patch's B-splines outside of their domain.)", "quantifier": "every number of patches, increasing radii, bases, coefficients, radius and angle", "why_tests_cant": "tests use three patches and compare a few points", "anchors": ["src/multipatch/spline/multipatch_spline_evaluator_2d.hpp: MultipatchSplineEvaluator2D", "src/multipatch/spline/constant_extrapolation_rules_onion.hpp: ConstantExtrapolationRuleOnion", "src/multipatch/spline/null_extrapolation_rules.hpp: NullExtrapolationRule", "src/multipatch/utils/multipatch_math_tools.hpp: norm_inf, error_norm_inf"]}
{"id": "C77", "title": "A field with derivatives is a faithful memory", "statement": "In a DerivFieldMem or DerivField of any dimensions, an element is accepted exactly when the orders are at most NDerivs and, in each dimension with non-zero order, the point is one of those with derivatives. Distinct elements (values and all cross derivatives) never share memory, all the allocated memory is used, every access is inside it; hence reading gives the last value written to the same element. Slicing by an index or by ranges, with positions given where derivatives are requested, gives the elements of the original; views use the same memory. Objects destroyed once each free every array exactly once. (Shown: after the defaulted move assignment both objects free the same arrays; a slice of derivatives without the position refers to the wrong points.)", "quantifier": "every list of grid and derivative dimensions in any order, ranges, strided sets of points with derivatives, numbers of derivatives, elements, slices, and sequences of constructions and destructions", "why_tests_cant": "tests use 1D/2D fields of one size and check some elements", "anchors": ["src/data_types/derivative_field_common.hpp: DerivFieldCommon", "src/data_types/derivative_field_mem.hpp: DerivFieldMem", "src/data_types/derivative_field.hpp: DerivField", "src/data_types/deriv_details.hpp"]}
{"id": "C78", "title": "Values and derivatives reach the Hermite spline builder in the right arguments", "statement": "SplineBuilderDerivField2D, applied to a 2D field with derivatives, calls the Hermite builder with the values at every interpolation point, the normal derivatives of every order along the four edges, and the cross-derivatives of every pair of orders at the four corners, each in the argument meant for it. (Shown: the announced check that the field contains the derivatives required by the builder does not exist; a field with fewer derivatives is read out of range.)", "quantifier": "every grid size, number of derivatives, set of boundary conditions (Hermite or other), field content", "why_tests_cant": "tests use one degree and one grid and only look at the final spline", "anchors": ["src/utils/spline_builder_deriv_field_2d.hpp: SplineBuilderDerivField2D"]}
{"id": "C79", "title": "Batched sparse matrices and their iterative solves", "statement": "In a MatrixBatchEll the element accessors, the views and the solver see the same element, inside of the allocation, and setting one element changes no other; norm() of ELL and CSR matrices is the infinity norm of the matrix for any schedule of the reduction (an upper bound if columns are repeated). solve() returns exactly when every system of the batch has a logged residual within the tolerance (or is reported converged) and then replaces the right-hand sides by the solutions; otherwise it throws and leaves the right-hand sides unchanged. (Shown: the accessors accept one index too many, which is an element of the next system or out of range; the constructor from strided views ignores the strides; the ELL solver iterates to a relative residual but is checked against an absolute one, so a converged solve throws for large right-hand sides and an unconverged one is accepted for small ones.)", "quantifier": "all sizes, values, column patterns, schedules of the parallel reductions, solvers, right-hand sides", "why_tests_cant": "tests solve a few small systems with norms near one", "anchors": ["src/matrix_tools/matrix_batch_ell.hpp: MatrixBatchEll", "src/matrix_tools/matrix_batch_csr.hpp: MatrixBatchCsr::solve, norm", "src/matrix_tools/matrix_utils.hpp: check_conv"]}
{"id": "C80", "title": "Simulations make the right steps, write the right files and restart exactly", "statement": "The 1D1V and 2D2V simulations write the state after k*nb steps, at time k*nb*dt, with its potential, to file k, for each k*nb up to the number of steps, and no other file, where nb is the largest number of steps that fits in time_diag; the guiding-centre simulations number the files by iteration; the collision simulation saves the states before each application of the operator. A 1D1V run restarted from any file of an earlier run leaves the same directory as one uninterrupted run; a restart from a missing file fails. The number of steps of the guiding-centre simulations never passes the final time. (Shown: time_diag below the time step makes every run fail; the last state is only saved if the number of steps is a multiple of nb; the quotient is truncated after rounding; the polar simulations stop early, by up to half of the time or more, unless 1/dt is an integer.)", "quantifier": "every time step, output interval, number of steps, restart file, previous content of the directory, initial state and numerical operators", "why_tests_cant": "tests run one simulation with one input file", "anchors": ["simulations/geometryXVx/vlasovpoisson_xvx_fft.cpp: main", "simulations/geometryXVx/pdi_out.yml.hpp", "src/geometryXVx/initialisation/restartinitialisation.cpp: RestartInitialisation", "simulations/geometryXYVxVy/landau/landau4d_fft.cpp: main", "simulations/geometryXY/guiding_centre/guiding_centre.cpp: main", "simulations/geometryRTheta/diocotron/diocotron.cpp: main", "simulations/geometryRTheta/vortex_merger/vortex_merger.cpp: main", "simulations/geometryVparMu/collisions/test_collSpVparMu.cpp: main"]}
{"id": "C81", "title": "The guiding-centre simulations start from the documented data and solve the documented equation", "statement": "The diocotron simulation starts from the perturbed annulus evaluated at each grid point, and saves its equilibrium and the potential of this equilibrium; the Cartesian simulation starts from sin y + eps cos(2 pi x / L); with the coefficients chosen by the polar simulations the potential satisfies the weak form of Laplacian(phi) = rho for all the test functions. (Shown: the vortex merger simulation overwrites the perturbed density with the equilibrium, so that its output is the same for all perturbation parameters; it saves as equilibrium potential the potential of uninitialised memory; and it solves the equation with the sign opposite to its documentation.)", "quantifier": "every grid, mapping, perturbation parameters, solver, content of uninitialised memory, number of steps", "why_tests_cant": "no test compares runs with different perturbations", "anchors": ["simulations/geometryRTheta/diocotron/diocotron.cpp: main", "simulations/geometryRTheta/vortex_merger/vortex_merger.cpp: main", "simulations/geometryXY/guiding_centre/guiding_centre.cpp: main"]}
{"id": "C82", "title": "The collision operator receives the data of the simulation, in its layout, and its handle is released once", "statement": "A configuration is accepted exactly when the numbers of points in r, theta and phi are powers of two (always, in the (species, vpar, mu) geometry) and nustar0 is 1. The external operator receives the extents (1 for a dimension that does not exist), masses, charges, coordinates, quadrature coefficients, zero masks, the norm of the magnetic field and sqrt(2); Bstar is copied element by element with transposition and replication, for any order of the dimensions and any schedule of the loop; the distribution function (sp,vpar,mu) has the layout [sp,phi,theta,r,vpar,mu] of the external operator. Without copies each handle is released exactly once. (Shown: the uniformity of mu is not checked; a copy of an operator releases the handle twice.)", "quantifier": "every extents, dimension orders, schedules, contents, sequences of constructions and destructions", "why_tests_cant": "tests use one grid and depend on the external library", "anchors": ["src/collisions/collision_common_configuration.hpp: CollisionConfigurationData", "src/geometryVparMu/collisions/collision_configuration.hpp: CollisionConfiguration", "src/collisions/collision_operator.hpp: CollisionOperator", "src/collisions/collision_operator.cpp"]}
{"id": "C83", "title": "Vector fields give each tag its own component and share or copy memory as documented", "statement": "A VectorFieldMem allocates one component per tag, each with its own memory on the whole index range; the component along Tag of v(i) is get<Tag>(v)(i); pointers given to a VectorField are attached to the tags in order; views and slices refer to the same memory (v[s](j) = v(s,j), a sub-range keeps every element, successive slices compose); assign_vector_field_element(v,i,x) makes v(i)=x and changes nothing else; deepcopy(dst,src) makes the destination equal to the source position by position and leaves everything else unchanged; create_mirror_view_and_copy gives the same values, in the same memory if and only if it is accessible. The constructors check neither that the components have the same index range nor that the pointers differ.", "quantifier": "every list of tags, every number of dimensions, extents and first indices, every memory content, every slice, every pair of indices", "why_tests_cant": "Tests use two tags on one small grid; aliasing, offsets of slices and the frame of copies quantify over all shapes and memory contents.", "anchors": ["src/data_types/vector_field_common.hpp (VectorFieldCommon, ddcHelper::deepcopy, ddcHelper::get)", "src/data_types/vector_field_mem.hpp (VectorFieldMem)", "src/data_types/vector_field.hpp (VectorField, create_mirror_view_and_copy, assign_vector_field_element)"]}
{"id": "C84", "title": "Multipatch containers keep one element per patch and copy patch by patch", "statement": "When the element types of the patches differ, a MultipatchType/MultipatchField built from one argument per patch returns the k-th argument for the k-th patch; get<Patch> compiles if and only if exactly one patch of the container has the element type of Patch; containers built from another one with patches in another order, and idx_range(), get_field(), get_const_field(), hold on each patch the element (or its image) of the same patch; a MultipatchFieldMem allocates separate memory for each patch on its index range; deepcopy copies each patch into the same patch and changes nothing else. Two patches sharing an element type can be stored but not read; the MultipatchFieldMem constructor from owning fields never compiles.", "quantifier": "every list of patches, every assignment of element types to patches, every memory content, every ordering", "why_tests_cant": "A test instantiates a few patch lists; lookup by type has to be right for all orderings and type assignments, and ill-formed instantiations cannot be tested at run time.", "anchors": ["src/multipatch/data_types/multipatch_type.hpp (MultipatchType::get, constructors)", "src/multipatch/data_types/multipatch_field.hpp (MultipatchField, ddcHelper::deepcopy)", "src/multipatch/data_types/multipatch_field_mem.hpp (MultipatchFieldMem)"]}
{"id": "C85", "title": "Multipatch spline builders use the outer condition outside and the transition condition inside", "statement": "For a well-formed connectivity the boundary condition of the builder of a patch at an edge is the transition condition exactly if the edge is glued to another edge, and the outer condition exactly if it is joined to the outside; an edge in no interface does not compile; building calls, patch after patch, the builder of this patch with the coefficients, values and the given derivatives of this patch. The collection of interface derivative calculators returns the calculator of the requested interface. Two patches with the same builder type make the builder impossible to call.", "quantifier": "every connectivity graph, every list of patches, every set of optional derivatives", "why_tests_cant": "The selection is done by template metaprogramming over arbitrary connectivity graphs; a test covers two or three patches.", "anchors": ["src/multipatch/spline/multipatch_spline_builder.hpp (MultipatchSplineBuilder)", "src/multipatch/spline/multipatch_spline_builder_2d.hpp (MultipatchSplineBuilder2D)", "src/multipatch/interface_derivatives/single_interface_derivatives_calculator_collection.hpp (get)"]}
{"id": "C86", "title": "Interpolators return their data inside the domain and the chosen rule outside", "statement": "LagrangeInterpolator and SplineInterpolator compile exactly when both extrapolation rules (and, for splines, both boundary conditions) are periodic if and only if the dimension is. In a non-periodic dimension the interpolator returns the given values at the points, reproduces polynomials of its degree between them, and outside returns the value of the rule of the nearest end: 0 for NULL_VALUE, the boundary value for CONSTANT (hence with two CONSTANT rules it is the interpolator at the clamped coordinate, and continuous for splines). In a periodic dimension it is defined everywhere and has the period of the domain. With NULL_VALUE it jumps at the end unless the boundary value is zero.", "quantifier": "all rules, boundary conditions, degrees, grids, values and coordinates", "why_tests_cant": "The rules, the values and the coordinates outside the domain are unbounded.", "anchors": ["src/interpolation/extrapolation_rule_choice.hpp:get_extrapolation", "src/interpolation/constant_identity_interpolation_extrapolation_rule.hpp", "src/interpolation/lagrange_interpolation.hpp:LagrangeInterpolator", "src/interpolation/spline_interpolation.hpp:SplineInterpolator"]}
{"id": "C87", "title": "Quasi-neutrality solvers return the field of the total charge", "statement": "With the FFT solver (any number of periodic dimensions) QNSolver returns a zero-mean potential whose Laplacian is minus the deviation of the total charge density of all species from its mean and the electric field minus its gradient: in 1D1V although the calculator forgets the adiabatic charge, and in parallel 2D2V on any number of ranks (equal to the serial solver) although the adiabatic charge is counted once per rank. The same holds for periodic finite elements with any correct linear solver; with non-periodic finite elements it holds exactly when no adiabatic species carries charge. A spatially uniform plasma has no field; NullQNSolver leaves the fields unchanged; a distribution function on another spatial range fails the assertion.", "quantifier": "all species, charges, quadratures, distribution functions, grids, ranks and velocity distributions", "why_tests_cant": "Composition of charge density, parallel reduction and Poisson solver for all inputs.", "anchors": ["src/geometryXVx/poisson/qnsolver.cpp:QNSolver", "src/geometryXYVxVy/poisson/qnsolver.cpp:QNSolver", "src/geometryXVx/poisson/nullqnsolver.cpp", "src/geometryXYVxVy/poisson/nullqnsolver.cpp", "src/geometryXYVxVy/poisson/mpichargedensitycalculator.cpp"]}
{"id": "C88", "title": "A partial derivative object differentiates the field it was made from", "statement": "An object made by a partial derivative creator (central finite differences, periodic or not, with or without boundary values; 1D splines; constant) from a field gives, each time it is applied and whatever was written into any field in between (including into this very field, by the object itself or by others), the derivative of the values which the field had when the object was made; applying it writes the points of the grid in the result field and nothing else, making it writes nothing. For a quadratic field on a non-uniform grid, finite differences give the exact derivative. A gradient creator gives in component k the derivative along dimension k of the original field, provided the field itself is not one of the components of the result; when it is, the later components are derivatives of an already overwritten field (finding). A Poisson-like right-hand side function by contrast is a view: it reflects later changes of the coefficients.", "quantifier": "all fields, grids, histories of writes, creations and applications, builders and evaluators", "why_tests_cant": "A test makes one object and applies it once to another field; independence of what happens between making and applying is a property of all histories", "anchors": ["src/math_tools/ipartial_derivative.hpp", "src/math_tools/central_fdm_partial_derivatives.hpp: CentralFDMPartialDerivative", "src/math_tools/central_fdm_partial_derivatives_with_boundary_values.hpp", "src/math_tools/spline_1d_partial_derivative.hpp: Spline1DPartialDerivative", "src/math_tools/constant_partial_derivatives.hpp", "src/math_tools/gradient_creator.hpp: GradientCreator", "src/geometryRTheta/poisson/poisson_like_rhs_function.hpp: PoissonLikeRHSFunction"]}
{"id": "C89", "title": "Arrays read through PDI are exactly those of the file", "statement": "Reading any number of arrays with one call, given as name, vector, name, vector, ..., with different names and different vectors: if the file holds each array together with its size, then whatever the vectors contained before and in whatever order the configuration reads the datasets, vector k is exactly the array of name k, no other vector changes and nothing remains shared with PDI; if an array or a size is missing, has the wrong kind or the sizes disagree, the program stops with an error and no memory outside of the vectors is accessed. At a restart the species have the charges and masses of the file. Findings: a trailing name without vector is silently ignored; the same vector for two names is overrun; fewer masses than charges in the file is an out-of-range read.", "quantifier": "all event names, lists of arrays, files, PDI configurations (orders), previous contents", "why_tests_cant": "Tests read one small file that exists and is right; the protocol must hold for every list of arrays, and must fail safely for every wrong file", "anchors": ["src/io/pdi_helper.hpp: PDI_get_arrays", "src/io/pdi_helper.hpp: detail::PDI_get_array", "src/speciesinfo/species_init.cpp: init_kinetic_species"]}
{"id": "C90", "title": "A file written in parallel equals the one a single process would write", "statement": "For every number of processes and every distribution of dimensions which the MPI layout accepts, every order of dimensions in the file and every order in which processes write: with the starts and extents exposed for the local index ranges, no write is refused and the dataset holds at every global index the value of the distribution function there. The array exposed for component k of a vector field has the name stem + suffix k; the array exposed for a mesh is the coordinates of its points in order. Finding: the starts count from index 0, so that a global index range which begins elsewhere is refused.", "quantifier": "all ranges, numbers of dimensions, process counts, distributed sets, file orders, write orders", "why_tests_cant": "The parallel output is exercised on at most a few ranks and one grid, without comparison with a serial file", "anchors": ["src/io/pdi_helper.hpp: PDI_expose_idx_range", "src/io/pdi_helper.hpp: PDI_expose_vector_field", "src/io/output.hpp: expose_mesh_to_pdi", "simulations/geometryXYVxVy/landau/landau4d_fft.cpp", "simulations/geometryXYVxVy/landau/pdi_out.yml.hpp", "src/geometryXYVxVy/time_integration/predcorr.cpp"]}
{"id": "C91", "title": "Splines and grids are initialised once, in order, from the data of the mesh", "statement": "Initialising a mesh from the configuration: uniform B-splines have ncells equal cells between min and max of the configuration; non-uniform ones have the break points of the file; the grid is the one computed from these B-splines or the points of the user after the check of the sampling. Whenever the function returns, both spaces have been initialised by it, exactly once, the B-splines first; a missing key or dataset is an error. Pseudo-uniform splines have the break points and grid of the uniform splines of the same configuration. Findings: the documented key <id>_MeshFile is never read; user points are read from grid_<id> with uniform B-splines and from <id> with non-uniform ones; a negative number of cells writes outside of an empty vector.", "quantifier": "all configurations, files, mesh identifiers, the four kinds of meshes, all sampling methods", "why_tests_cant": "Each simulation instantiates one kind of mesh with one configuration; missing keys and wrong files are never tested", "anchors": ["src/io/input.hpp: init_spline_dependent_idx_range", "src/io/input.hpp: init_pseudo_uniform_spline_dependent_idx_range", "src/paraconfpp/paraconfpp.hpp: PCpp_double, PCpp_int", "src/utils/mesh_builder.hpp"]}
{"id": "C92", "title": "A printed view determines the view", "statement": "Printing a multi-dimensional view of any rank without empty dimension succeeds, and two views of the same rank that are printed identically have the same extents and the same elements, provided elements are printed differently and without brackets and commas; a line is its elements separated by commas between brackets. Finding: a view with an empty last dimension reads elements that do not exist.", "quantifier": "all ranks, extents, elements", "why_tests_cant": "A statement about all pairs of views of all ranks", "anchors": ["src/utils/view.hpp: detail::stream_impl", "src/utils/view.hpp: operator<<"]}
{"id": "C93", "title": "Order of convergence of the time steppers for nonlinear equations", "statement": "For y' = f(y) with f of class C^p, one step of Euler (p=1), RK2 (p=2), RK3 (p=3), RK4 (p=4) from any point of the exact solution on [0,T] has an error of at most K h^(p+1) with one K for all starting times, and the state after any number n of steps with nh <= T differs from the exact solution by at most K h^p. CrankNicolson is of order two when every step passes at least twice through its loop, and of order one in general: for small steps the stopping test ends the loop after one pass, so that the step is the explicit Euler step and the method is not of order two for any fixed tolerance.", "quantifier": "every normed space of states, every C^p right-hand side, every exact solution on every interval, every small step size and number of steps, every tolerance and maximum number of iterations", "why_tests_cant": "Convergence tests measure the slope for one equation and a few step sizes; the order is a statement about all equations and the limit h -> 0.", "anchors": ["src/timestepper/euler.hpp: Euler::update", "src/timestepper/rk2.hpp: RK2::update", "src/timestepper/rk3.hpp: RK3::update", "src/timestepper/rk4.hpp: RK4::update", "src/timestepper/crank_nicolson.hpp: CrankNicolson::update"]}
{"id": "C94", "title": "Symmetries, conservation and equilibria of the periodic Vlasov-Poisson programs", "statement": "The 1D1V and 2D2V periodic programs (initial distribution, predictor-corrector loop, split Vlasov solver, charge density, FFT Poisson solver) commute with the translations of the periodic grid: moving the initial distribution by any number of grid points moves the final distribution and the distribution and potential of every output event by as much. A distribution which does not depend on the position is kept exactly, with a zero potential, for every number of steps and every set of species. A spatial advection by any displacement keeps, for each species and velocity, the sum over the positions (hence number of particles, momentum, energy), for Lagrange interpolation of any degree and for uniform splines; neutral species keep it for the whole simulation. With linear interpolation no new extremum appears and no convex functional increases.", "quantifier": "every grid size, spacing, degree, species data, time step, number of steps, initial distribution and displacement", "why_tests_cant": "A test runs one program on one initial condition and compares with tolerances; conservation and equivariance must hold for every displacement (also beyond the period and between the nodes) and every grid, through the composition of all operators.", "anchors": ["src/advection/bsl_advection_x.hpp:BslAdvectionSpatial", "src/advection/bsl_advection_vx.hpp:BslAdvectionVelocity", "src/interpolation/lagrange_evaluator.hpp:LagrangeEvaluator", "src/geometryXVx/time_integration/predcorr.cpp:PredCorr", "src/geometryXYVxVy/time_integration/predcorr.cpp:PredCorr", "src/pde_solvers/fft_poisson_solver.hpp:FFTPoissonSolver", "simulations/geometryXVx/vlasovpoisson_xvx_fft.cpp:main", "simulations/geometryXYVxVy/landau/landau4d_fft.cpp:main"]}
{"id": "C95", "title": "Order of accuracy on smooth functions", "statement": "For every smooth function and every admissible grid the discretisations have the order of accuracy they are documented to have, with an explicit bound on the error: the trapezoidal coefficients integrate with an error of at most max|f''|/12 L h^2 and the Simpson coefficients with one of order h^3 on any grid and max|f''''|/180 L h^4 when the two cells of every pair are equal; Gauss-Legendre integration with n points per cell is of order 2n in the size of the cells up to the rounding of the tables; the centred finite differences are of order 2 inside and at both ends of a non-uniform grid and on a periodic grid; the derivatives of Lagrange bases of degree D are of order D+1-k and the Lagrange evaluators of order D+1 (or the node tolerance), including across the period. Advancing a smooth periodic profile by the semi-Lagrangian advection n times with any time step gives the translated profile up to n interpolation errors, in the maximum norm for linear interpolation and in the mean-square norm for cubic interpolation, for which the mean square of a line never increases.", "quantifier": "all smooth functions (with their derivative bounds), all grids of admissible size, uniform or not, periodic or not, all evaluation points, degrees, time steps and numbers of steps", "why_tests_cant": "Tests estimate an order from two or three resolutions of one trigonometric function; the order is a statement about all smooth functions and all (non-uniform) grids, and convergence after n steps needs a stability argument.", "anchors": ["src/quadrature/trapezoid_quadrature.hpp", "src/quadrature/simpson_quadrature.hpp", "src/quadrature/gauss_legendre_integration.hpp", "src/math_tools/central_fdm_partial_derivatives.hpp", "src/interpolation/lagrange_basis_uniform.hpp", "src/interpolation/lagrange_basis_non_uniform.hpp", "src/interpolation/lagrange_evaluator.hpp", "src/interpolation/identity_interpolation_builder.hpp", "src/advection/bsl_advection_x.hpp: BslAdvectionSpatial::operator()"]}
{"id": "C96", "title": "Parallel loops give the sequential result under every schedule", "statement": "The loops of the library run with Kokkos in parallel. Whatever the order in which the individual loads, stores and atomic additions of the different iterations take place, the loops end with the same memory as a loop that runs the iterations one after the other: the trapezoid and Simpson coefficients, the accumulation of the finite-element right-hand side, the batched tridiagonal solve, the collision coefficients, the layout transposition, the unification of the values and the average of the advection field at the O-point, and the column indices and values of the polar FEM matrix (with any number of threads per team, all storing the result of the team). No loop can get stuck and none runs for ever. The separation of the two Simpson loops and the atomic addition in the finite-element loop are necessary: without them there are schedules with different results.", "quantifier": "all sizes, all contents of the memory, all numbers of threads, all interleavings of the individual memory accesses of all iterations (sequentially consistent memory, exact arithmetic)", "why_tests_cant": "A test observes a handful of the schedules of one machine; a race shows up rarely and only on some backends. Here every interleaving of the single accesses is covered.", "anchors": ["src/quadrature/trapezoid_quadrature.hpp", "src/quadrature/simpson_quadrature.hpp", "src/matrix_tools/matrix_batch_tridiag.hpp: solve", "src/pde_solvers/fem_1d_poisson_solver.hpp", "src/geometryXVx/rhs/collisions_utils.hpp", "src/utils/transpose.hpp: transpose_layout", "src/advection/spline_polar_foot_finder.hpp: unify_value_at_centre_pt", "src/advection/bsl_advection_polar.hpp", "src/pde_solvers/polar_spline_fem_poisson_like_assembler.hpp"]}
{"id": "C97", "title": "Integrals and norms in floating point, for every schedule of the reduction", "statement": "With floating-point arithmetic (every operation has a relative error of at most u) the integral returned by Quadrature differs from the weighted sum by at most ((1+u)^(h+2) - 1) times the weighted sum of the absolute values, where h is the number of additions on the longest path of the reduction; two runs with different schedules differ by at most twice this. Integrals of non-negative functions with non-negative coefficients are never negative, and are zero exactly when all the products are. norm_L1 and norm_L2 have small relative errors whatever the schedule; error_norm_inf has a relative error of at most u and its result does not depend on the schedule at all.", "quantifier": "all index ranges, all coefficients and values, all reduction trees and orders, all roundings with relative error at most u (independent for each operation; every rounding mode and fused multiply-add included), without overflow or underflow", "why_tests_cant": "A test compares one schedule on one machine with a tolerance chosen by hand; the bound for all schedules and all data cannot be observed.", "anchors": ["src/quadrature/quadrature.hpp: operator()", "src/math_tools/l_norm_tools.hpp: norm_L1, norm_L2, error_norm_inf"]}
{"id": "C98", "title": "The batched tridiagonal solver is backward stable in floating point", "statement": "If the rows of a matrix of MatrixBatchTridiag are diagonally dominant with a margin of one rounding error ((1+u)(|sub|+|upp|) < (1-u)|diag|), then in floating point no divisor vanishes and the computed solution is the exact solution of a system with the same right-hand side and the same zero entries whose entries differ by at most 12 u relatively from the given ones, independently of the size. Consequently the distance to the exact solution is at most 12 u S M / \u03b1 (S: absolute row sums, M: size of the computed solution, \u03b1: margin of dominance).", "quantifier": "all sizes, all dominant tridiagonal matrices, all right-hand sides, all roundings with relative error at most u \u2264 1/100 (independent for each operation, except that the two occurrences of the same denominator are rounded in the same way), without overflow or underflow", "why_tests_cant": "Rounding errors depend on the data; a test on a few matrices says nothing about growth with the size or about other right-hand sides.", "anchors": ["src/matrix_tools/matrix_batch_tridiag.hpp: solve"]}
{"id": "C99", "title": "Semi-Lagrangian advection with Lagrange interpolation of any degree is stable for every displacement, and converges", "statement": "For every degree D of the uniform periodic Lagrange interpolation with 0 < D < number of points, every grid spacing, tolerance below half a cell, time step, mass and velocity: the advection in space does not increase the sum of the squares of the values of any line of the distribution function (no restriction on the time step), in the 1D1V program and for the lines in x and in y of the 2D2V program; and n steps from the samples of a smooth periodic function differ from the translated function, in root mean square, by at most n times the error of one interpolation, of order D+1 in the grid spacing. With degree one the new values stay between the bounds of the old ones; with an odd degree of at least three, for every displacement that is not a whole number of cells, some non-negative line gets a negative value.", "quantifier": "every degree, grid, tolerance, time step, mass, velocity, distribution function, number of steps, smooth periodic initial function", "why_tests_cant": "Stability is a statement about all displacements, all wave numbers and all degrees; tests run a few advections with one degree and a tolerance, and a slightly off-centre stencil would pass them while amplifying some modes.", "anchors": ["src/advection/bsl_advection_x.hpp:BslAdvectionSpatial::operator()", "src/interpolation/lagrange_evaluator.hpp:LagrangeEvaluator", "src/interpolation/lagrange_basis_uniform.hpp:UniformLagrangeBasis::eval_basis", "src/interpolation/identity_interpolation_builder.hpp:IdentityInterpolationBuilder"]}
{"id": "C100", "title": "Semi-Lagrangian advection with uniform periodic cubic splines is stable for every displacement and fourth-order accurate", "statement": "With uniform periodic cubic splines (the degree used by every program), for every number of points, grid spacing, time step, mass and velocity: the advection in space does not increase the sum of the squares of the values of any line of the distribution function; the spline built from the samples of a periodic function with fourth derivative bounded by M is within 6 M dx^4 of it everywhere; and n steps from the samples differ from the translated function, in root mean square, by at most n sqrt(L) 6 M dx^4.", "quantifier": "every grid, time step, mass, velocity, distribution function, number of steps, smooth periodic initial function, and every builder/evaluator pair with the stated interface of DDC's splines", "why_tests_cant": "Stability is a statement about all displacements and all wave numbers, and the order of accuracy about all smooth functions and all grids; tests compare a few runs with a tolerance.", "anchors": ["src/advection/bsl_advection_x.hpp:BslAdvectionSpatial::operator()", "src/interpolation/spline_interpolation.hpp:SplineInterpolation", "simulations/geometryXVx/spline_definitions_xvx.hpp:BSDegreeX"]}
{"id": "C101", "title": "The whole Vlasov-Poisson programs carry a species without charge along straight lines", "statement": "In the 1D1V program (predictor-corrector, split Vlasov solver, any field solver) and in the 2D2V program, for a species with charge zero and whatever the other species, the time step and the number of steps: the sum of the squares of its values at each velocity never grows; and if it starts from the samples of a smooth periodic function g, after n steps its values differ from g(x - v n dt), in root mean square, by at most 2n (1D) or 2n per direction (2D) interpolation errors: M/(4(D+1)) dx^(D+1) for Lagrange interpolation of degree D, 6 M dx^4 for cubic splines.", "quantifier": "every plasma with a neutral species, initial distribution of all species, field solver, velocity interpolation, time step, number of steps, degree", "why_tests_cant": "An end-to-end convergence statement over all initial data, all time steps and any number of steps; the end-to-end tests run one case with a tolerance.", "anchors": ["simulations/geometryXVx/vlasovpoisson_xvx_fft.cpp", "simulations/geometryXYVxVy/landau/landau4d_fft.cpp", "src/geometryXVx/time_integration/predcorr.cpp:PredCorr::operator()", "src/geometryXVx/boltzmann/splitvlasovsolver.cpp:SplitVlasovSolver::operator()", "src/geometryXYVxVy/vlasov/splitvlasovsolver.cpp:SplitVlasovSolver::operator()"]}
{"id": "C102", "title": "Periodic coordinates in floating-point arithmetic", "statement": "Evaluating a periodic interpolant at a coordinate outside of its domain, in floating-point arithmetic: (a) the wrapped coordinate is, up to an explicit multiple of the unit roundoff, the coordinate moved by a whole number of periods, and is in the domain up to the same error; coordinates of the domain are not changed; (b) on a uniform periodic grid every knot and coefficient index used is inside the knots of the basis and the coordinate handed to the basis is at most half a cell from the middle of the stencil up to rounding, for every coordinate whose rounding error is small compared to a cell; (c) restrict_to_idx_range terminates and returns the coordinate moved by whole periods, below the end of the domain and not below its beginning, up to rounding; (d) the search of a cell on a non-uniform grid terminates exactly when the coordinate is in the closed domain. Refuted: that the wrapped coordinate is always in the domain. In binary64, on the periodic domain [1, 3.8] the coordinate -1.8 is wrapped to 1 - 2^-52, and the evaluation on any non-uniform grid of this domain never returns; restrict_to_idx_range returns 0.5 - 2^-54 on the domain [0.5, 0.7).", "quantifier": "all coordinates, domains, numbers of cells, degrees and all results of the arithmetic operations within the relative error u (every rounding mode, with or without fused operations); the witnesses are for round-to-nearest-even binary64", "why_tests_cant": "the tests compare a few coordinates, with tolerances, and no test wraps coordinates whose quotient by the period rounds to an integer from the wrong side; an endless loop depends on the last bit of the domain ends and of the coordinate", "anchors": ["src/interpolation/lagrange_evaluator.hpp: LagrangeEvaluator::eval, find_stencil, getclosest", "src/utils/ddc_helper.hpp: restrict_to_idx_range, restrict_to_bspline_domain", "src/interpolation/polar_splines/polar_spline_evaluator.hpp: PolarSplineEvaluator::eval"]}
{"id": "C103", "title": "Lagrange interpolation computed in floating-point arithmetic", "statement": "The value returned by the Lagrange evaluator is computed with rounded operations: the barycentric weights, the offset in the stencil, the detection of nodes, the quotients of calculate_values_between_nodes and the final sum. For every coordinate (inside or outside of a periodic domain), every degree and every way the operations are rounded with relative error u, the result is the value of the exact interpolating polynomial of the coefficients of the stencil at a point that is the coordinate moved by whole periods up to an explicit multiple of u and of the node tolerance, with an error of at most 4*gamma(2D+5)*(1+L)*L*max|coef|, L being a bound of the Lebesgue function ((D+1)*2^D in a uniform stencil), gamma(k) about k*u. The same holds for the non-uniform basis. With coefficients sampled from a smooth periodic function f the distance to f(x) is at most the interpolation error of order D+1 plus multiples of the rounding errors.", "quantifier": "every degree, number of cells, grid, coefficients, coordinate, and every rounding of the operations (relative error at most u, independent for each operation)", "why_tests_cant": "Tests compare a few double results to a tolerance; they can not cover every coordinate and every rounding, in particular those next to nodes and to the ends of the periodic domain, where branches change.", "anchors": ["src/interpolation/lagrange_basis_uniform.hpp:LagrangeBasisUniform::Impl::eval_basis", "src/interpolation/lagrange_basis_uniform.hpp:check_if_node", "src/interpolation/lagrange_basis_uniform.hpp:calculate_values_between_nodes", "src/interpolation/lagrange_basis_non_uniform.hpp:get_weights", "src/interpolation/lagrange_basis_non_uniform.hpp:calculate_values_between_nodes", "src/interpolation/lagrange_evaluator.hpp:LagrangeEvaluator::eval"]}
{"id": "C104", "title": "The predictor-corrector time loops are second-order accurate, including the coupling with the self-consistent field", "statement": "If the sub-operators are the flows of their generators (the spatial advection of A, the velocity advection of B in a given field) and the field solver is a twice continuously differentiable function of the distribution, then for every solution f of the coupled equation f' = A(f) + B(f, E(f)) on [0, T] there are K and h0 such that, for every time step h <= h0 and every number n of steps with n h <= T, the distribution returned by the time loop started from f(0) differs from f(n h) by at most K h^2. This holds for the 1D1V loop, alone or with one source, for the 2D2V loop, for the Cartesian guiding-centre loop and for the polar RK2 loop, and for any number of sources applied in the order the documentation describes.", "quantifier": "all Banach spaces of states and fields, all smooth (nonlinear) flows and field solvers, all solutions, all time steps and numbers of steps", "why_tests_cant": "a convergence test measures an order on one problem for a few time steps; the claim is an estimate for all problems and all small steps", "anchors": ["src/geometryXVx/time_integration/predcorr.cpp:PredCorr::operator()", "src/geometryXVx/boltzmann/splitvlasovsolver.cpp", "src/geometryXVx/boltzmann/splitrighthandsidesolver.cpp", "src/geometryXYVxVy/time_integration/predcorr.cpp", "src/geometryXYVxVy/vlasov/splitvlasovsolver.cpp", "src/geometryXY/time_integration/predcorr_RK2.hpp", "src/geometryRTheta/time_solver/bsl_predcorr.hpp"]}
{"id": "C105", "title": "The Vlasov solvers move the distribution without changing the volume of its level sets", "statement": "With an exact interpolation, a run of the 1D1V or 2D2V time loop, with any number of steps of any size and any field solver that gives a measurable periodic field, leaves unchanged, for every species and every measurable set S of values, the volume of the points of one period of phase space where the distribution has a value in S. Hence all integrals of functions of the distribution (number of particles, norms, entropies) are conserved, and the distribution takes exactly the values that it had at the beginning.", "quantifier": "all measurable spatially periodic distributions, field solvers, masses, charges, time steps, numbers of steps and sets of values", "why_tests_cant": "conservation of every integral of every function of the distribution cannot be observed on samples, and interpolation errors hide it in a test", "anchors": ["src/geometryXVx/time_integration/predcorr.cpp:PredCorr::operator()", "src/geometryXVx/boltzmann/splitvlasovsolver.cpp", "src/geometryXYVxVy/vlasov/splitvlasovsolver.cpp", "src/advection/bsl_advection_x.hpp", "src/advection/bsl_advection_vx.hpp"]}
{"id": "C106", "title": "The MPI simulation: no deadlock, termination, and the serial result under every interleaving", "statement": "A program whose processes do local work and make collective calls (MPI_Alltoall, MPI_Allreduce, collective file output) never deadlocks, always ends and leaves a result that does not depend on the interleaving of the processes exactly when all processes make matching calls in the same order; a call made by only some of the processes, or with counts that differ, stops every run. The 2D2V simulation landau4d_fft satisfies this: the counts of each MPI_Alltoall match between any two processes; the constructor of the transposition throws on all processes or on none (when P does not divide nx ny or nvx nvy, or P > nx ny); and on any number P of processes for which it succeeds, for any number of time steps, any interleaving of the processes, any order of the parallel loops and any initial content of the buffers, the run completes, the distribution function on each process is that of the serial simulation (SplitVlasovSolver, ChargeDensityCalculator, PredCorr) at each of its points, the PDI events are those of the serial simulation (name, iteration, time, potential, local part of the distribution function), and the dataset written by all the processes in any order contains the serial distribution function at every point. Two runs on different numbers of processes give the same values.", "quantifier": "all numbers of processes, all grid sizes, all line operators, quadrature coefficients and Poisson solvers that read only their grid, all initial distributions, time steps and numbers of steps, all interleavings of the processes, all schedules of the loops, all contents of fresh memory", "why_tests_cant": "A test runs one number of processes and sees one interleaving; a deadlock or a wrong exchange can depend on the grid, on the number of processes and on timing.", "anchors": ["src/geometryXYVxVy/vlasov/mpisplitvlasovsolver.cpp:MpiSplitVlasovSolver::operator()", "src/geometryXYVxVy/poisson/mpichargedensitycalculator.cpp:MpiChargeDensityCalculator::operator()", "src/geometryXYVxVy/poisson/qnsolver.cpp:QNSolver::operator()", "src/geometryXYVxVy/time_integration/predcorr.cpp:PredCorr::operator()", "src/mpi_parallelisation/mpitransposealltoall.hpp:MPITransposeAllToAll", "simulations/geometryXYVxVy/landau/landau4d_fft.cpp:main", "simulations/geometryXYVxVy/landau/pdi_out.yml.hpp"]}
{"id": "C107", "title": "Integrals whose quadrature coefficients are computed in floating point", "statement": "When every operation of the coefficient functions, of the products and of the parallel sum is rounded with relative error at most u (no overflow or underflow): every trapezoid coefficient of an increasing grid is positive and within a relative error (1-u)^-3 - 1 of the exact one; every Simpson coefficient is within (1-u)^-13 - 1 of the exact one relative to the sum of the absolute values of its terms, and the rejected and out-of-bounds sizes are those of exact arithmetic; and the integral of a smooth function computed with these coefficients along any reduction tree of height h differs from the true integral by at most the truncation error of the rule (M2/12 L dx^2 for the trapezoid rule, M4/180 L dx^4 for the Simpson rule on equal cells) plus ((1-u)^-(h+5) - 1) L max|f| respectively ((1-u)^-(h+15) - 1) 2 n dx max|f|.", "quantifier": "every unit roundoff 0 <= u < 1, every increasing grid and number of points, periodic or not, every reduction tree over the points, every function of the stated smoothness, every possible sequence of rounding errors", "why_tests_cant": "A test samples a few grids and one rounding mode on one machine; the bound must hold for every grid, every schedule of the reduction and every sequence of roundings.", "anchors": ["src/quadrature/trapezoid_quadrature.hpp: trapezoid_quadrature_coefficients_1d", "src/quadrature/simpson_quadrature.hpp: fill_simpson_quadrature_coefficients_1d", "src/quadrature/quadrature.hpp: Quadrature::operator()"]}
{"id": "C108", "title": "Explicit time steppers in floating point: accumulated rounding errors", "statement": "When every operation of Euler, RK2, RK3 and RK4 with the default update is rounded with relative error at most u <= 1/1000 and the user's derivative is evaluated with an error of at most eps, then for a derivative bounded by K with Lipschitz constant L and a step with dt L <= 1: one computed step differs from the exact step of the same method by at most 16 (u B + dt (u K + eps)), with B a bound of the state; after n steps the computed state differs from the one of the exact stepper by at most exp(2 L n dt) (initial error + 16 n (u B + dt (u K + eps))); and it differs from the solution of a sufficiently smooth differential equation by at most C dt^p (p = 1, 2, 3, 4) plus that amount. In particular the rounding error grows like the number of steps, not faster.", "quantifier": "every unit roundoff u <= 1/1000, every bounded Lipschitz right-hand side on a field with any number of components, every evaluation error, step, number of steps and sequence of rounding errors", "why_tests_cant": "Tests measure the convergence order on one smooth problem with a few steps; the accumulation of rounding errors must be bounded for every problem, every number of steps and every sequence of roundings.", "anchors": ["src/timestepper/euler.hpp: Euler::update", "src/timestepper/rk2.hpp: RK2::update", "src/timestepper/rk3.hpp: RK3::update", "src/timestepper/rk4.hpp: RK4::update", "src/timestepper/itimestepper.hpp: serial_y_update, ITimeStepper::update"]}
{"id": "C109", "title": "Many steps of the spatial advection in floating-point arithmetic stay close to the exact scheme and to the translated function", "statement": "Let BslAdvectionSpatial advance a periodic uniform line with Lagrange interpolation of an odd degree D below the number N of points, every operation (the displacement sqrt(m_e/m_s)*dt*v with its square root, the coordinates of the feet, the reduction to the domain, the choice of the stencil, the weights, the basis functions, the sum) being rounded with a relative error of at most u. If the rounding errors of the positions are below a quarter of a cell, then for every dt, velocity, mass ratio and line: (1) each new value differs from the value of the exact scheme (exact displacement, exact piecewise interpolating polynomial) by at most kappa times the largest value, kappa being an explicit multiple of u plus the node tolerance; the choice of a neighbouring stencil because of rounding is harmless; (2) after n steps the mean square is at most (1 + sqrt(N) kappa)^n times the initial one; (3) the line differs in the mean square from n steps of the exact scheme by at most ((1 + sqrt(N) kappa)^n - 1) times the norm of the initial line; (4) starting from a smooth periodic function g the computed line differs from g(x - n dt v sqrt(m_e/m_s)) by at most n times the interpolation error of order D + 1 plus that term. The sum of the values (the mass) after n steps differs from the initial one by at most sqrt(N) ((1 + sqrt(N) kappa)^n - 1) times the initial norm.", "quantifier": "all odd degrees, numbers of points above the degree, grids (computed coordinates of the knots with an error up to tau), time steps, velocities, masses, lines of values, numbers of steps and all roundings of every operation", "why_tests_cant": "A test runs one compiler, one rounding and a few steps; the statement is about every rounding, every displacement (also exactly on nodes, where the computed stencil jumps) and every number of steps.", "anchors": ["src/advection/bsl_advection_x.hpp: BslAdvectionSpatial::operator()", "src/interpolation/lagrange_evaluator.hpp: LagrangeEvaluator::eval", "src/interpolation/lagrange_basis_uniform.hpp: eval_basis, check_if_node", "src/interpolation/identity_interpolation_builder.hpp: operator()"]}
{"id": "C110", "title": "Discrete mappings coincide with the analytical mapping on their grid, for as long as their builder lives", "statement": "A discrete (spline) mapping obtained from a builder sends every interpolation point of the builder's grid to the image given by the analytical mapping it was built from, after any sequence of later constructions and destructions of other builders; the refined builder does so on its refined grid, whose break points are n+1 equally spaced increasing points from the lower to the upper bound of the original splines in both the uniform and the non-uniform branch. jacobian_component returns the entries of jacobian_matrix, these are the partial derivatives of the discrete mapping, and jacobian is their determinant. The singular points are the grid points with the first radial coordinate; if the analytical mapping collapses r=0 to one point, all of them are mapped to it and o_point() is that point, and the first row of control points is that point.", "quantifier": "every analytical mapping, grid, refinement, point and every sequence of constructions and destructions of builders; every spline builder/evaluator that interpolates at distinct points", "why_tests_cant": "Tests compare a few mappings on a few grids with one builder alive; agreement for every mapping and the behaviour over every history of constructions cannot be sampled.", "anchors": ["src/coord_transformations/discrete_poloidal_cs_spline_mapping.hpp: DiscretePoloidalCSSplineMapping", "src/coord_transformations/discrete_poloidal_cs_spline_mapping_builder.hpp: DiscretePoloidalCSSplineMappingBuilder, RefinedDiscretePoloidalCSSplineMappingBuilder"]}
{"id": "C111", "title": "Polar coordinates computed in floating point", "statement": "Converting a point to circular coordinates and back in floating-point arithmetic moves each coordinate by at most one rounding of it plus (20u + 9v + 2.6e-16) times the distance to the centre; the computed radius has relative error at most 4u; converting (r, theta) to the plane and back returns r up to (9u + 3v) r plus 2u times the coordinates of the centre; in binary64 the angle returned is in [0, 2*M_PI]. (Shown: the upper end is returned, for points just below the half-line of angle zero.)", "quantifier": "all centres and points, all rounding errors bounded by u (arithmetic, square root) and v (atan2, cos, sin), u, v <= 1/100", "why_tests_cant": "The tests convert a few points and compare with a tolerance; the bound must hold for every point, centre and rounding.", "anchors": ["src/coord_transformations/cartesian_to_circular.hpp: CartesianToCircular::operator()", "src/coord_transformations/circular_to_cartesian.hpp: CircularToCartesian::operator()", "src/coord_transformations/cartesian_to_cylindrical.hpp: operator() (angle)", "src/coord_transformations/cartesian_to_czarny.hpp: operator() (angle)"]}
{"id": "C112", "title": "A killed simulation can be continued from the files it left", "statement": "For the 1D1V simulations: after every history of runs, each started from the initial condition or restarted from any complete output file, with any number of steps and killed at any point (also inside of a file write), every complete file k holds exactly the state, time and potential after k*nb steps, as in one uninterrupted run; each killed run destroys at most one file, the one being written, and a run killed between writes destroys none; going on from any complete file writes all later files right, and the disk becomes that of a single uninterrupted run when the earlier files are complete and no later ones exist. If the output interval is changed between runs the contents remain consistent states with their time. (Shown: a restarted run first replaces the file it was started from, so that a kill during that write destroys the newest complete file, and repeated kills can destroy all of them.)", "quantifier": "all histories of runs, all start files, numbers of steps, crash points, initial states, time steps and numerical operators", "why_tests_cant": "The set of histories and crash points is infinite; tests cannot kill a program at every point.", "anchors": ["simulations/geometryXVx/vlasovpoisson_xvx_fft.cpp: main", "simulations/geometryXVx/vlasovpoisson_xvx_fem_uniform.cpp: main", "simulations/geometryXVx/pdi_out.yml.hpp: PDI_CFG", "src/geometryXVx/initialisation/restartinitialisation.cpp: RestartInitialisation::operator()", "src/geometryXVx/time_integration/predcorr.cpp: PredCorr::operator()"]}
{"id": "C113", "title": "Finite-difference derivatives in floating-point arithmetic: rounding, data errors and their growth under refinement", "statement": "In floating-point arithmetic of unit roundoff u every value returned by the finite-difference partial derivatives (non-periodic, periodic, and with prescribed boundary values) differs from the real-number formula by at most ((1-u)^-10 - 1) (about 10 u) times (1/h1 + 1/h2) times the weighted sum of the values used, where h1 and h2 are the two cells used; at the two ends of a periodic dimension, where the size of the closing cell comes from a cancellation, with (m+2)u in place of u if the rest of the domain is at most m closing cells long. Hence for a C^3 function whose samples are known up to eta on a grid with cells between k and h the total error is at most (max|f'''|/6) h^2 (/3 at the two ends) plus 8 (about 10 u max|f| + eta)/k: refining the grid reduces the first part and increases the second one. The growth is real: the derivative of the constant 1 on a uniform grid of spacing h can be returned as -u/(2h). Without rounding the only result is the real-number one.", "quantifier": "every number of points (>= 3, periodic: >= 2), every strictly increasing grid, every field, boundary values, C^3 function, data error, unit roundoff u < 1 and every choice of the individual roundings (any rounding mode, any contraction), at every point", "why_tests_cant": "tests compare with a tolerance on a few grids; the bound quantifies over all grids, functions and roundings, and shows how the error grows on finer grids than any test uses", "anchors": ["src/math_tools/central_fdm_partial_derivatives.hpp: CentralFDMPartialDerivative::operator(), fdm_centred", "src/math_tools/central_fdm_partial_derivatives_with_boundary_values.hpp: CentralFDMPartialDerivativeWithBValue::operator()"]}
{"id": "C114", "title": "The 1D FEM Poisson solver converges, for B-splines of any degree on any break points", "statement": "For the actual B-splines (Cox-de Boor) of every degree d >= 1 on every increasing sequence of break points, clamped for walls or periodic, and for every quadrature with at least d distinct points with positive weights per cell, the linear system of FEM1DPoissonSolver has a solution for every density. With walls the computed potential vanishes at both walls. When the density is a spline of degree d and the quadrature is exact up to degree 2d (the solver's d+1 Gauss points are), the computed electric field differs from the exact one (-phi'' = rho with phi = 0 at the walls, or phi periodic and rho reduced by its mean) by at most d * h * max|rho| in the root mean square over the quadrature points, where h is the widest cell, and with walls the potential at every break point differs by at most the length L of the domain times that. If the exact potential has d+1 derivatives the error is at most 6 (d h)^d max|phi^(d+1)|: the method has order d. If the spline density differs from the density which is meant by at most eps, the field differs from that of the latter by at most eps * L more (2 eps * L in the periodic case). With B-splines whose knots are not repeated at the wall, a zero first coefficient does not make the potential vanish there.", "quantifier": "every degree, every number of cells, every increasing break points, every quadrature with the stated exactness, every spline density, every linear solver which solves the assembled system, every density which is approximated", "why_tests_cant": "convergence is a statement about all meshes and all degrees; a test compares one density on a few meshes with a tolerance", "anchors": ["src/pde_solvers/fem_1d_poisson_solver.hpp: FEM1DPoissonSolver"]}
{"id": "C115", "title": "Spline quadratures integrate the interpolating spline exactly", "statement": "The quadrature with the coefficients of spline_quadrature_coefficients_1d gives, for every function, the integral of the spline (periodic, or without boundary conditions) which has the values of the function at the interpolation points; with neumann_spline_quadrature_coefficients_1d it is the integral of the spline which has these values and slope zero at both ends. Hence all splines are integrated exactly, and on a non-periodic interval all polynomials whose degree is at most that of the splines (for the Neumann version: those whose slope vanishes at both ends; x^2 is not). For a function with d+1 derivatives the error of the quadrature with splines of degree d is at most 3 (L + sum|w|) ((d+1) h)^(d+1) max|f^(d+1)|, where L is the length of the domain, w are the coefficients and h is the widest cell, periodic or not. There are such coefficients, and only one list of them, whenever the interpolation problem has at most one solution and as many equations as unknowns. This is so for interpolation at the break points of any mesh, with every odd degree (periodic) and with cubic splines (Neumann), and without boundary conditions for every degree and increasing interpolation points each inside the support of its B-spline, in particular for the Greville points; the cubic quadratures there have an error of at most 7 L h^4 max|f''''|, for periodic functions and for functions whose slope vanishes at both ends.", "quantifier": "every degree, number of cells, increasing break points, interpolation points and function; all solutions of the transposed interpolation system", "why_tests_cant": "exactness for a whole space of functions and for all meshes is not settled by comparing a few integrals with a tolerance", "anchors": ["src/quadrature/spline_quadrature.hpp: spline_quadrature_coefficients_1d", "src/quadrature/neumann_spline_quadrature.hpp: neumann_spline_quadrature_coefficients_1d"]}
{"id": "C116", "title": "Spline interpolation is well posed on every mesh (odd degrees at the break points, all degrees at the Greville points), and cubic splines have order 4", "statement": "For every odd degree, number of cells and increasing break points (however non-uniform) the interpolation problem of SplineInterpolator at the break points has exactly one solution: with periodic boundary conditions for all values, and with (homogeneous) Hermite boundary conditions for all values and all end derivatives of orders 1 to half the degree. With the boundary condition GREVILLE (no further equations) it has exactly one solution for every degree, every increasing break points and every increasing interpolation points each inside the support of its B-spline, in particular for the Greville points; a point outside can make it singular. For degree 3, the degree of the simulations, the interpolator at the break points differs from a function f with four derivatives by at most 7 h^4 max|f''''| at every coordinate (periodic: at every real number; Hermite: in the domain, and outside it is the value of f at the end), its slope by at most 7 h^3 max|f''''| and its second derivative by at most 7 h^2 max|f''''|, where h is the widest cell and no bound on the ratio of the cells is needed. For even degrees the problem at the break points can be singular.", "quantifier": "every degree, number of cells (one and more), increasing break points, interpolation points, values and end derivatives; every function with four derivatives and every coordinate", "why_tests_cant": "Tests interpolate a few functions on a few meshes. That the system is never singular, and that the constant of the error does not depend on how uneven the mesh is, concerns all meshes.", "anchors": ["src/interpolation/spline_interpolation.hpp: SplineInterpolator", "simulations/geometryXVx/spline_definitions_xvx.hpp: SplineXBuilder, SplineVxBuilder", "src/geometryRTheta/geometry/spline_definitions_r_theta.hpp: SplineRThetaBuilder"]}
{"id": "C117", "title": "Semi-Lagrangian advection with periodic cubic splines conserves mass, is stable and converges", "statement": "On a uniform periodic mesh with the cubic SplineInterpolator, BslAdvectionSpatial, and BslAdvection1D with a field that is constant on the line, for every velocity, every number of steps and time steps of any size (no CFL condition): the sum of the values on the line never changes; the root mean square of the values never grows; and if the initial values are those of a periodic function g with four derivatives, then after k steps the values differ from the exact solution g(x - c t) of the transport equation by at most 7 k h^4 max|g''''| in the root mean square. Positivity is not guaranteed: on four cells a single 1 among zeros, displaced by half a cell, gives a value -3/32.", "quantifier": "every number of cells, mesh width, velocity, mass ratio, time stepper, sequence of time steps, number of steps and initial values; every periodic function with four derivatives", "why_tests_cant": "Tests advect one or two functions for a few steps. Stability and convergence speak of all initial values, all Courant numbers and any number of steps, and the error of a step is not damped by the next unless the method is stable.", "anchors": ["src/advection/bsl_advection_x.hpp: BslAdvectionSpatial", "src/advection/bsl_advection_1d.hpp: BslAdvection1D", "src/interpolation/spline_interpolation.hpp: SplineInterpolator"]}
{"id": "C118", "title": "Two-dimensional spline interpolation is well posed, does not depend on the order of the directions, and is of order 4", "statement": "The interpolation problem of a two-dimensional spline builder has exactly one solution for all values, end derivatives and mixed corner derivatives, on all meshes, in every combination of these directions: periodic at the break points (odd degrees), Hermite at the break points (odd degrees), and values at increasing interpolation points each inside the support of its B-spline (all degrees), in particular the builder of the poloidal plane with Greville points in r and periodic in theta. Solving one direction after the other solves this problem. With cubic splines in both directions, periodic or Hermite, and data of a function f, the derivative of orders k, l <= 2 of the spline (the value, and what Spline2DPartialDerivative returns, k + l = 1) differs from that of f at every point by at most 7 h1^(4-k) max|d1^4 d2^l f| + 7 h2^(4-l) max|d1^k d2^4 f| + 49 h1^(4-k) h2^(4-l) max|d1^4 d2^4 f|, where h1 and h2 are the widest cells; there is no condition on the ratios of the cells or of the directions.", "quantifier": "every number of cells, increasing break points, degrees of the stated kinds, interpolation points, values and derivatives; every function with four derivatives in each direction and every point of the domain", "why_tests_cant": "Tests interpolate a few functions on a few meshes with a tolerance; that the system is never singular, and one constant for all meshes, concerns all of them", "anchors": ["src/utils/spline_builder_deriv_field_2d.hpp: SplineBuilderDerivField2D::operator()", "src/math_tools/spline_2d_partial_derivative.hpp: Spline2DPartialDerivative", "src/geometryRTheta/geometry/spline_definitions_r_theta.hpp: SplineRThetaBuilder_host"]}
{"id": "C119", "title": "Patch-wise Hermite splines with the interface derivatives of the global spline are the global spline", "statement": "Let a spline of odd degree over a whole line of break points be given (with boundary conditions at both ends, or periodic). The spline which the builder of one patch makes from the values of this global spline at the patch's break points and its derivatives at the two ends of the patch equals the global spline everywhere on the patch, with all derivatives. The same holds in two dimensions: a rectangular patch of a global grid whose builder gets the values, the normal derivatives at the edges and the mixed derivatives at the corners which the global tensor-product spline has there has the global spline on the whole patch, with all partial derivatives, and two such patches side by side agree on their common edge in all partial derivatives of order below the degree across it. Conversely, in one dimension, if the splines of two neighbouring patches agree at the interface in the derivatives of every order below the degree, together they are the single spline which one builder makes for both patches from the same values and the same outer derivatives. In particular: for cubic splines on two patches, when the interface derivative is the one that SingleInterfaceDerivativesCalculator computes from the function values and the outer derivatives of a twice continuously differentiable cubic spline over both patches, the two patch splines built with it are this spline.", "quantifier": "every odd degree, every increasing break points (any widths), every number of cells in each patch and direction, every global spline, every sub-range of cells, patches that share a whole direction included; for the last part every pair of patches with at least 3 and 2 cells which the calculator accepts", "why_tests_cant": "tests compare the patch splines with a global one on a few meshes within a tolerance; the identity must hold for every mesh and every data, otherwise the multi-patch field is not smooth at the interfaces", "anchors": ["src/multipatch/interface_derivatives/single_interface_derivatives_calculator.hpp: SingleInterfaceDerivativesCalculator::get_function_coefficients", "src/multipatch/spline/multipatch_spline_builder.hpp: MultipatchSplineBuilder"]}
{"id": "C120", "title": "The Fourier Poisson solver has the order of the smoothness of the density", "statement": "If the density on the periodic domain is a sum of plane waves with absolutely summable coefficients, FFTPoissonSolver treats every wave with less than half a period per grid cell exactly, in the potential and in every component of the electric field, for odd and for even numbers of points. The values it returns differ from those of the exact periodic solution of -Laplacian(phi) = rho - mean(rho), and of its gradient, by at most (L/2pi)^2 and L/pi times the sum of the coefficients of the waves which the grid does not resolve. If the coefficients are still summable after multiplication by the power p of the wave numbers, these errors are of order (2/n)^p, where n is the smallest number of points in a dimension: the order is limited by the density only.", "quantifier": "all numbers of dimensions, grid sizes, spacings, origins of the domain and absolutely summable families of waves (finite or infinite), every order p", "why_tests_cant": "tests compare with a few analytical densities of one wave on a few grids; the bound must hold for every density and its decrease for every refinement", "anchors": ["src/pde_solvers/fft_poisson_solver.hpp: FFTPoissonSolver"]}
{"id": "C121", "title": "The error of the quasi-neutrality solver is that of the grid plus that of the charge", "statement": "If the exact charge density of all species (charges times densities, plus the adiabatic background) is a sum of plane waves with absolutely summable coefficients on the periodic domain of lengths at most L, and the velocity quadrature gives the density of species s at each grid point up to kappa_s, then the potential which QNSolver returns with the FFT solver has a root mean square distance of at most (L/2pi)^2 (T + sum_s |q_s| kappa_s) to an exact periodic solution of -Laplacian(phi) = rho - mean(rho), where T is the sum of the coefficients of the waves which the grid does not resolve; with odd numbers of points each component of the electric field is within L/pi T + L/(2pi) sum_s |q_s| kappa_s of minus its gradient. Neither factor depends on the numbers of points: refining the grid does not amplify quadrature errors. The serial and parallel 2D2V solvers return the same values as the 1D1V one.", "quantifier": "all numbers of dimensions, species, charges, quadratures, distribution functions, grid sizes, spacings, error bounds, ranks and absolutely summable families of waves", "why_tests_cant": "tests check a single sinusoidal perturbation on a fixed grid; the bound concerns every density and error and its independence of the resolution", "anchors": ["src/geometryXVx/poisson/qnsolver.cpp:QNSolver", "src/geometryXYVxVy/poisson/qnsolver.cpp:QNSolver", "src/pde_solvers/fft_poisson_solver.hpp: FFTPoissonSolver", "src/geometryXVx/poisson/chargedensitycalculator.cpp", "src/geometryXYVxVy/poisson/mpichargedensitycalculator.cpp"]}
{"id": "C122", "title": "The largest stable time steps of the time steppers", "statement": "For a linear equation y' = A y which conserves the energy ((A v, v) = 0 for every v: oscillations, rotations, transport by centred differences) and whose frequencies are at most beta, RK3 does not increase the energy over any number of steps if (beta dt)^2 <= 3, and RK4 if (beta dt)^2 <= 8; Euler and RK2 never decrease it, whatever the step. For an oscillation of one frequency these limits are sharp: beyond them, and with Euler and RK2 for every step, the energy grows without bound. A Crank-Nicolson step which solves its equation conserves the energy exactly for every step; one which ends because its tolerance eps is reached changes it by at most |dt|/2 beta eps times (|y|+|y_old|)|y_old|. If A dissipates the energy, (A v, v) <= 0, the Crank-Nicolson equation has at most one solution and it does not increase the energy, for every dt >= 0. For the decay y' = -lambda y with z = lambda dt >= 0, no step increases the solution exactly when z <= 2 (Euler and RK2), z^3-3z^2+6z <= 12 (RK3, z < 2.52), z^3-4z^2+12z <= 24 (RK4, z < 2.79).", "quantifier": "all real inner product spaces, linear operators, frequencies, decay rates, time steps, initial states, numbers of steps, tolerances and limits of iterations", "why_tests_cant": "tests run a few steps of a few equations with small time steps; stability is about all numbers of steps and the exact limit of the time step", "anchors": ["src/timestepper/euler.hpp: Euler", "src/timestepper/rk2.hpp: RK2", "src/timestepper/rk3.hpp: RK3", "src/timestepper/rk4.hpp: RK4", "src/timestepper/crank_nicolson.hpp: CrankNicolson"]}
{"id": "C123", "title": "On uniform periodic grids the trapezoid rule has the order of the smoothness of the integrand", "statement": "Let the integrand be a Fourier series with absolutely summable coefficients on a periodic domain of length L. With the trapezoid coefficients on the uniform periodic grid of n points, the quadrature minus the integral is exactly L times the sum of the coefficients of the waves whose number is a non-zero multiple of n. Hence every sum of waves with fewer than n oscillations is integrated exactly, the wave with n oscillations is not (the rule gives L instead of 0), and if the coefficients remain summable after multiplication by the power p of the wave number, the error is at most L n^(-p) times their sum, for every p. The error of the Simpson coefficients on the same (even) grid is (4 e(n) - e(n/2))/3, where e(k) is that of the trapezoid rule with k points: Simpson's rule is exact only for fewer than n/2 oscillations and gives -L/3 for the wave with n/2 oscillations, which the trapezoid rule integrates exactly.", "quantifier": "all numbers of points, domains, absolutely summable Fourier coefficients, orders p and initial contents of the allocation", "why_tests_cant": "tests integrate a few functions on a few grids; exactness and order concern every integrand and every number of points", "anchors": ["src/quadrature/trapezoid_quadrature.hpp: trapezoid_quadrature_coefficients_1d", "src/quadrature/quadrature.hpp: Quadrature::operator()"]}
