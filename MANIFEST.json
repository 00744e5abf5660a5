{
 "claims": [
  {
   "property": "C01",
   "status": "proved",
   "theorems": [
    "C01_pad_keeps_frequencies",
    "C01_pad_zero_elsewhere",
    "C01_pad_blocks_same_size",
    "C01_pad1_frequency"
   ],
   "note": ""
  },
  {
   "property": "C02",
   "status": "proved",
   "theorems": [
    "C02_pad_round_trip",
    "C02_truncate_pad_projection",
    "C02_truncate_pad_idempotent"
   ],
   "note": ""
  },
  {
   "property": "C03",
   "status": "proved",
   "theorems": [
    "C03_nk_points_length",
    "C03_nk_points_centred_residue",
    "C03_nk_points_order",
    "C03_nk_points_injective"
   ],
   "note": ""
  },
  {
   "property": "C04",
   "status": "proved",
   "theorems": [
    "C04_flat_of_stacked",
    "C04_stacked_of_flat",
    "C04_stacked_out_of_range",
    "C04_raise_iff",
    "C04_wrap_mod",
    "C04_clip_clamp"
   ],
   "note": ""
  },
  {
   "property": "C05",
   "status": "proved",
   "theorems": [
    "C05_wrap_index_window",
    "C05_wrap_index_unique",
    "C05_wrap_index_closest",
    "C05_wrap_stacked"
   ],
   "note": ""
  },
  {
   "property": "C06",
   "status": "proved",
   "theorems": [
    "C06_wrap_distance",
    "C06_wrap_x_point",
    "C06_wrap_x_point_periodic"
   ],
   "note": ""
  },
  {
   "property": "C07",
   "status": "proved",
   "theorems": [
    "C07_data",
    "C07_shape",
    "C07_position"
   ],
   "note": ""
  },
  {
   "property": "C08",
   "status": "partial",
   "theorems": [
    "C08_cumulative_x",
    "C08_cumulative_monotone",
    "C08_cumulative_dominates_straight_line",
    "C08_wrapped_step",
    "C08_cumulative_on_grid",
    "C08_cumulative_k_length",
    "C08_cumulative_k_not_per_point",
    "C08_cumulative_k_partial"
   ],
   "note": "The position-space version is proved; the momentum-space version has the wrong number of entries (negation theorem with witness)."
  },
  {
   "property": "C09",
   "status": "proved",
   "theorems": [
    "C09_fourier"
   ],
   "note": ""
  },
  {
   "property": "C10",
   "status": "proved",
   "theorems": [
    "C10_route",
    "C10_raises",
    "C10_identity_irrelevant"
   ],
   "note": ""
  },
  {
   "property": "C11",
   "status": "proved",
   "theorems": [
    "C11_round_trip",
    "C11_fundamental"
   ],
   "note": ""
  },
  {
   "property": "C12",
   "status": "proved",
   "theorems": [
    "C12_adjoint",
    "C12_norm_le",
    "C12_isometry"
   ],
   "note": ""
  },
  {
   "property": "C13",
   "status": "proved",
   "theorems": [
    "C13_evenly_spaced",
    "C13_evenly_spaced_transformed"
   ],
   "note": ""
  },
  {
   "property": "C14",
   "status": "proved",
   "theorems": [
    "C14_truncated",
    "C14_transformed"
   ],
   "note": ""
  },
  {
   "property": "C15",
   "status": "proved",
   "theorems": [
    "C15_any_order",
    "C15_product"
   ],
   "note": ""
  },
  {
   "property": "C16",
   "status": "proved",
   "theorems": [
    "C16_explicit"
   ],
   "note": ""
  },
  {
   "property": "C17",
   "status": "proved",
   "theorems": [
    "C17_matrix",
    "C17_hermitian",
    "C17_lossless"
   ],
   "note": ""
  },
  {
   "property": "C18",
   "status": "partial",
   "theorems": [
    "C18_negation",
    "C18_same_partial"
   ],
   "note": "Holds for complex data and for different-identity bases; false for float64 input (C18_negation): .view reinterprets pairs of reals as complex numbers."
  },
  {
   "property": "C19",
   "status": "proved",
   "theorems": [
    "C19_trigonometric",
    "C19_points"
   ],
   "note": ""
  },
  {
   "property": "C20",
   "status": "partial",
   "theorems": [
    "C20_exact",
    "C20_points_partial",
    "C20_negation",
    "C20_points_nd_partial",
    "C20_pad_real"
   ],
   "note": "False for even lengths (C20_negation); C20_exact gives the exact value in every case; odd lengths and several axes proved."
  },
  {
   "property": "C21",
   "status": "proved",
   "theorems": [
    "C21_reciprocal_dual",
    "C21_reciprocal_involutive",
    "C21_volumes",
    "C21_phase",
    "C21_volume_signed"
   ],
   "note": ""
  },
  {
   "property": "C22",
   "status": "partial",
   "theorems": [
    "C22_decrement_3d",
    "C22_decrement_raises_other_dimensions",
    "C22_decrement_never_away_partial"
   ],
   "note": "Proved for three dimensions as coded; other dimensions raise or misbehave (negation)."
  },
  {
   "property": "C23",
   "status": "proved",
   "theorems": [
    "C23_bragg_distance_sign",
    "C23_bragg_distance_metric"
   ],
   "note": ""
  },
  {
   "property": "C24",
   "status": "proved",
   "theorems": [
    "C24_twice_average",
    "C24_twice_average_equivariant"
   ],
   "note": ""
  },
  {
   "property": "C25",
   "status": "proved",
   "theorems": [
    "C25_value",
    "C25_dual_inverse",
    "C25_hermitian_form",
    "C25_basis_independent"
   ],
   "note": ""
  },
  {
   "property": "C26",
   "status": "proved",
   "theorems": [
    "C26_contract",
    "C26_eigenstates",
    "C26_rebuild",
    "C26_rebuild_hermitian",
    "C26_exp",
    "C26_function",
    "C26_eigenbasis"
   ],
   "note": ""
  },
  {
   "property": "C27",
   "status": "proved",
   "theorems": [
    "C27_build",
    "C27_unstack",
    "C27_stacked_index",
    "C27_weighted",
    "C27_basis_states",
    "C27_convert",
    "C27_inner_products"
   ],
   "note": ""
  },
  {
   "property": "C28",
   "status": "proved",
   "theorems": [
    "C28_projection_isometry",
    "C28_projection_triangular"
   ],
   "note": ""
  },
  {
   "property": "C29",
   "status": "partial",
   "theorems": [
    "C29_matmul",
    "C29_matmul_raises",
    "C29_add_partial",
    "C29_negation",
    "C29_commutator",
    "C29_ring_laws",
    "C29_apply",
    "C29_apply_product",
    "C29_list_matmul",
    "C29_list_add",
    "C29_list_commutator",
    "C29_list_iter"
   ],
   "note": "Products, commutators, application, lists and ring laws proved; sums and differences hold for operands of the same data layout and raise for a product plus a flat operator (C29_negation)."
  },
  {
   "property": "C30",
   "status": "partial",
   "theorems": [
    "C30_average_partial",
    "C30_negation",
    "C30_list"
   ],
   "note": "Explicit axes, and two-axis bases without axes, proved; without axes it raises for one axis and leaves axes for three (C30_negation)."
  },
  {
   "property": "C31",
   "status": "proved",
   "theorems": [
    "C31_full",
    "C31_apply",
    "C31_list"
   ],
   "note": ""
  },
  {
   "property": "C32",
   "status": "proved",
   "theorems": [
    "C32_decomposition",
    "C32_exp",
    "C32_raises",
    "C32_diagonal"
   ],
   "note": ""
  },
  {
   "property": "C33",
   "status": "proved",
   "theorems": [
    "C33_conserved",
    "C33_compose",
    "C33_diagonal"
   ],
   "note": ""
  },
  {
   "property": "C34",
   "status": "partial",
   "theorems": [
    "C34_m_matrix_partial",
    "C34_negation",
    "C34_bands_negation"
   ],
   "note": "The generator properties are proved; the caller's array is modified whenever it has a nonzero diagonal entry (C34_negation), and a number of bands raises (C34_bands_negation)."
  },
  {
   "property": "C35",
   "status": "proved",
   "theorems": [
    "C35_spectrum"
   ],
   "note": ""
  },
  {
   "property": "C36",
   "status": "proved",
   "theorems": [
    "C36_simulation",
    "C36_nonneg"
   ],
   "note": ""
  },
  {
   "property": "C37",
   "status": "proved",
   "theorems": [
    "C37_stationary",
    "C37_converges",
    "C37_nonneg",
    "C37_connected"
   ],
   "note": ""
  },
  {
   "property": "C38",
   "status": "proved",
   "theorems": [
    "C38_hop_vectors",
    "C38_translation",
    "C38_unitary",
    "C38_inverse"
   ],
   "note": ""
  },
  {
   "property": "C39",
   "status": "proved",
   "theorems": [
    "C39_layout",
    "C39_exact",
    "C39_error"
   ],
   "note": ""
  },
  {
   "property": "C40",
   "status": "partial",
   "theorems": [
    "C40_banded_partial",
    "C40_rust_partial",
    "C40_rust_negation",
    "C40_qutip_negation"
   ],
   "note": "The banded and dense solvers receive the same equation and the stated increment when the sampling step is one; the dense solver takes the sampled instead of the fundamental time step (C40_rust_negation) and the qutip solver receives a Hamiltonian without the division by hbar (C40_qutip_negation)."
  },
  {
   "property": "C41",
   "status": "partial",
   "theorems": [
    "C41_orthogonal",
    "C41_density",
    "C41_probability",
    "C41_normalised_partial",
    "C41_normalised_negation",
    "C41_time_negation",
    "C41_first_negation"
   ],
   "note": "Projections, probabilities and densities are proved; the selected state is not normalised (C41_normalised_negation), and the recorded times and first state are wrong (C41_time_negation, C41_first_negation)."
  },
  {
   "property": "C42",
   "status": "proved",
   "theorems": [
    "C42_fey_110",
    "C42_fey_112bar",
    "C42_bounds_110",
    "C42_bounds_112bar",
    "C42_four_variable"
   ],
   "note": "At momentum transfers where the mean phase of the 110 direction vanishes the code divides zero by zero; everywhere else proved."
  },
  {
   "property": "C43",
   "status": "proved",
   "theorems": [
    "C43_range",
    "C43_decreasing",
    "C43_particle_hole",
    "C43_energy",
    "C43_detailed_balance",
    "C43_integral"
   ],
   "note": ""
  },
  {
   "property": "C44",
   "status": "partial",
   "theorems": [
    "C44_bounded",
    "C44_initial_partial",
    "C44_initial_negation",
    "C44_unwrapped",
    "C44_fit",
    "C44_fit_decays"
   ],
   "note": "Bounded by one always; equal to one at time zero for an initial occupation of a single state, false for mixed initial occupations (C44_initial_negation)."
  },
  {
   "property": "C45",
   "status": "proved",
   "theorems": [
    "C45_place",
    "C45_unique",
    "C45_bloch"
   ],
   "note": ""
  },
  {
   "property": "C46",
   "status": "proved",
   "theorems": [
    "C46_inner",
    "C46_normalized"
   ],
   "note": ""
  },
  {
   "property": "C47",
   "status": "proved",
   "theorems": [
    "C47_momenta",
    "C47_tile"
   ],
   "note": ""
  },
  {
   "property": "C48",
   "status": "partial",
   "theorems": [
    "C48_orthogonal",
    "C48_from",
    "C48_into_partial",
    "C48_states",
    "C48_round_trip_partial",
    "C48_truncated_negation"
   ],
   "note": "Orthogonality, conversion from the fundamental basis and get_bloch_states hold for every basis of the Bloch states; the conversion to the fundamental basis raises whenever that basis is truncated (C48_truncated_negation), so it and the round trip are proved for complete bases only (C48_into_partial, C48_round_trip_partial)."
  },
  {
   "property": "C49",
   "status": "partial",
   "theorems": [
    "C49_samples_partial",
    "C49_rejects",
    "C49_unfurl_negation"
   ],
   "note": "The samples kept by convert_wavepacket_to_shape are those with the same momentum (C49_samples_partial), incompatible shapes are rejected; the returned list basis is not the transformed one, so unfurling the result is wrong (C49_unfurl_negation)."
  },
  {
   "property": "C50",
   "status": "proved",
   "theorems": [
    "C50_unitary",
    "C50_orthonormal",
    "C50_positive"
   ],
   "note": ""
  },
  {
   "property": "C51",
   "status": "proved",
   "theorems": [
    "C51_hermitian",
    "C51_spectrum"
   ],
   "note": ""
  },
  {
   "property": "C52",
   "status": "partial",
   "theorems": [
    "C52_superposition_partial",
    "C52_orthonormal_partial",
    "C52_inverse_partial",
    "C52_truncated_negation"
   ],
   "note": "Superposition, orthonormality and inverse for bases of the Bloch states with shape equal to the fundamental shape (_partial); for truncated bases the translations use the wrong cell length (C52_truncated_negation)."
  },
  {
   "property": "C53",
   "status": "partial",
   "theorems": [
    "C53_phases_partial",
    "C53_norm_partial",
    "C53_two_point_negation",
    "C53_max_point_negation"
   ],
   "note": "localize_tightly_bound_wavepacket_idx for one index and the fundamental transformed list basis. The sibling functions are wrong: the two point variant returns N times too many entries, the maximum variant raises (negations at the level of array shapes)."
  },
  {
   "property": "C54",
   "status": "partial",
   "theorems": [
    "C54_wavepacket_states_partial",
    "C54_wavepacket_state_partial",
    "C54_eigenstates_negation"
   ],
   "note": "get_all_eigenstates as written raises whenever there is more than one momentum per sample (C54_eigenstates_negation); the corresponding functions get_all_wavepacket_states and get_wavepacket_state_vector are proved to list one state per sample, in order, with the right phase."
  },
  {
   "property": "C55",
   "status": "partial",
   "theorems": [
    "C55_full_entries",
    "C55_full_roundtrip",
    "C55_diagonal_roundtrip",
    "C55_isotropic_entries",
    "C55_isotropic_reflected",
    "C55_isotropic_roundtrip_partial",
    "C55_isotropic_negation",
    "C55_stacked_entries",
    "C55_stacked_roundtrip"
   ],
   "note": "Full/diagonal and stacked isotropic round trips hold for all kernels. The flat isotropic read-back takes the first row, so it returns the reflected kernel: proved exactly, round trip for symmetric kernels only, negation with a witness."
  },
  {
   "property": "C56",
   "status": "proved",
   "theorems": [
    "C56_diagonal",
    "C56_diagonal_refused",
    "C56_full"
   ],
   "note": "Under the contract of eigh (shown to be satisfiable by the spectral theorem). Full kernels: operators of shape n x n."
  },
  {
   "property": "C57",
   "status": "partial",
   "theorems": [
    "C57_refuses",
    "C57_kernel",
    "C57_kernel_periodic",
    "C57_rebuild",
    "C57_orthonormal",
    "C57_real",
    "C57_stacked_kernel",
    "C57_stacked_rebuild",
    "C57_axis_kernel",
    "C57_axis_partial",
    "C57_axis_negation"
   ],
   "note": "Single and stacked complex Fourier operators rebuild the kernel for every grid and every padding that contains the grid. Axis-wise Fourier operators rebuild it only for kernels which are products of their axes (partial); counterexample proved."
  },
  {
   "property": "C58",
   "status": "proved",
   "theorems": [
    "C58_fit",
    "C58_gaussian",
    "C58_lorentzian_series",
    "C58_lorentzian_negation",
    "C58_stacked_negation",
    "C58_cos",
    "C58_taylor",
    "C58_terms_negation",
    "C58_linear_kernel",
    "C58_linear_negation"
   ],
   "note": "Cosine/sine operators, the explicit Taylor solver with as many terms as coefficients, and the linear operators. Proved false: number of terms different from the number of coefficients gives unusable operators; the linear operators give a function of x x', not of x - x'. Gaussian coefficients match the derivatives up to order 2t-1; the fitted Chebyshev series reproduces an even kernel at all displacements of at most n points (the least-squares solver is a parameter with its contract). Proved false: the lorentzian Taylor coefficients do not match the lorentzian; the stacked gaussian has the amplitude to the power of the number of axes."
  },
  {
   "property": "C59",
   "status": "partial",
   "theorems": [
    "C59_partial",
    "C59_negation",
    "C59_negation_small",
    "C59_terms"
   ],
   "note": "Proved false for all grids of four or more points: fewer operators than eigenvalues. Partial: the eigenvalues are the cosine coefficients of the kernel."
  },
  {
   "property": "C60",
   "status": "proved",
   "theorems": [
    "C60_operators",
    "C60_isotropic",
    "C60_axis_roundtrip"
   ],
   "note": "Product kernels: operators built per axis give the tensor-product kernel; isotropic-from-axis and axis-from-isotropic round trip."
  },
  {
   "property": "C61",
   "status": "proved",
   "theorems": [
    "C61_diagonal_posSemidef",
    "C61_full_posSemidef",
    "C61_lengths",
    "C61_eigenvalues_nonneg"
   ],
   "note": "Diagonal and full kernels, for all lists with as many eigenvalues as operators; a length mismatch raises (C61_lengths). Converse: a positive semidefinite kernel has nonnegative eigenvalues."
  },
  {
   "property": "C62",
   "status": "partial",
   "theorems": [
    "C62_diagonal",
    "C62_full_partial",
    "C62_kernel_partial",
    "C62_modulus_negation",
    "C62_diagonal_kernel_negation"
   ],
   "note": "Diagonal operators: largest modulus, exact error, Frobenius error for orthonormal operators. Full operators: sorted with sign, so largest modulus fails (C62_modulus_negation); truncate_diagonal_noise_kernel always raises for more than one point (C62_diagonal_kernel_negation). argsort is a parameter with a contract."
  },
  {
   "property": "C63",
   "status": "proved",
   "theorems": [
    "C63_full",
    "C63_diagonal",
    "C63_commuting",
    "C63_matrix_elements",
    "C63_detailed_balance"
   ],
   "note": "Both versions; bases as in C29. Detailed balance holds up to third order in (E - E')/4kT."
  },
  {
   "property": "C64",
   "status": "partial",
   "theorems": [
    "C64_function_partial",
    "C64_gaussian_partial",
    "C64_one_dimension",
    "C64_flat_negation",
    "C64_oblique_negation",
    "C64_axis_negation",
    "C64_effective",
    "C64_effective_lorentzian",
    "C64_effective_negation",
    "C64_lorentzian_partial",
    "C64_operators_partial",
    "C64_index_displacement"
   ],
   "note": "Function, gaussian and lorentzian kernels equal the function of the periodic distance for orthogonal axes (partial) and in one dimension. Proved false: for oblique axes; on the flat grid index of more than one axis; the axis version raises for every axis of two or more points; the minimum correlation of the effective parameters is not the documented one."
  },
  {
   "property": "C65",
   "status": "proved",
   "theorems": [
    "C65_modulus",
    "C65_covariance",
    "C65_full",
    "C65_kernel",
    "C65_negative_negation"
   ],
   "note": "Over any probability space with independent standard normal numbers (existence shown). Eigenvalues must be nonnegative; otherwise the moduli count (C65_modulus, C65_negative_negation)."
  },
  {
   "property": "C66",
   "status": "proved",
   "theorems": [
    "C66_normalize",
    "C66_unique",
    "C66_idempotent",
    "C66_empty"
   ],
   "note": "Proved for every non-empty array: minimum zero, a uniform shift, idempotent, unique; an empty array raises."
  },
  {
   "property": "C67",
   "status": "partial",
   "theorems": [
    "C67_increasing",
    "C67_small",
    "C67_bound_negation",
    "C67_undo_partial",
    "C67_undo_negation"
   ],
   "note": "Proved: strictly increasing and close to the identity for small energies. Negation proved: the truncated energies are not bounded by the cutoff or by anything else. undo_truncate_potential is proved to be the inverse only for n=1 (_partial); for n>=2 a witness shows that it is not."
  },
  {
   "property": "C68",
   "status": "proved",
   "theorems": [
    "C68_grid",
    "C68_periodic",
    "C68_derivative"
   ],
   "note": "Proved for every number of axes: the continuous potential passes through the grid values, is periodic on the lattice, and the derivative function is its derivative. Floats as reals."
  },
  {
   "property": "C69",
   "status": "proved",
   "theorems": [
    "C69_kinetic"
   ],
   "note": "Proved for every dimension, invertible lattice and Bloch fraction: the energy is hbar^2|q|^2/2m for the momentum with the stated lattice phases; non-negative; zero exactly at zero momentum."
  },
  {
   "property": "C70",
   "status": "proved",
   "theorems": [
    "C70_elements",
    "C70_hermitian",
    "C70_toeplitz"
   ],
   "note": "Proved for every orthonormal stacked basis: the matrix elements are those of multiplication by the potential; Hermitian for real potentials; between truncated plane waves they are Fourier coefficients of the label difference."
  },
  {
   "property": "C71",
   "status": "proved",
   "theorems": [
    "C71_energy",
    "C71_hermitian"
   ],
   "note": "Proved for every orthonormal stacked basis: the energy form is the sum of kinetic and potential energies, the matrix is Hermitian and bounded below by the smallest value of the potential."
  },
  {
   "property": "C72",
   "status": "partial",
   "theorems": [
    "C72_guard_partial",
    "C72_guard_negation"
   ],
   "note": "The guard accepts exactly the truncations for which all differences of frequencies are distinct modulo the grid, up to the boundary case, where two differences coincide (C72_guard_negation); C72_guard_partial covers the others."
  },
  {
   "property": "C73",
   "status": "proved",
   "theorems": [
    "C73_filename",
    "C73_some"
   ],
   "note": "Injective for all integer arguments; C73_some characterises the arguments for which a name is returned."
  },
  {
   "property": "C74",
   "status": "proved",
   "theorems": [
    "C74_wavepacket",
    "C74_list",
    "C74_wavepacket_list",
    "C74_position"
   ],
   "note": "Pointwise products and sums, for wavepackets in arbitrary orthonormal bases, for lists of states and for lists of wavepackets."
  },
  {
   "property": "C75",
   "status": "partial",
   "theorems": [
    "C75_lattice",
    "C75_points",
    "C75_fractions_partial",
    "C75_fractions_negation",
    "C75_flat",
    "C75_truncated",
    "C75_momentum_negation"
   ],
   "note": "Discrete Fourier transform at the reciprocal lattice points, Fourier sum at points reduced to the centred cell everywhere, flat interpolator and its truncation with an error bound. The interpolator with fractions divides all coordinates by the number of points of the first axis: proved for equal numbers of points, with a counterexample otherwise; the conversion of an overlap to the momentum basis always raises (C75_momentum_negation)."
  },
  {
   "property": "C76",
   "status": "partial",
   "theorems": [
    "C76_probabilities",
    "C76_list",
    "C76_sum",
    "C76_sum_list_partial",
    "C76_negation",
    "C76_average",
    "C76_average_axes"
   ],
   "note": "All claims proved except the default axes of sum_probabilities and get_probability_along_axis for several list axes, which fail (C76_negation)."
  },
  {
   "property": "C77",
   "status": "partial",
   "theorems": [
    "C77_history_partial",
    "C77_shared_negation",
    "C77_torn",
    "C77_hit",
    "C77_none",
    "C77_recovers"
   ],
   "note": "A state machine on files (missing, complete, torn) with all call modes, failed writes, crashes at any point and deletions. Proved when arguments with different values have different paths; C77_shared_negation shows that the constant path, which the decorator accepts, returns the value of another call. C77_torn, C77_hit, C77_none and C77_recovers state what happens after crashes, hits, None results and deletions. Concurrent processes are not modelled."
  },
  {
   "property": "C78",
   "status": "proved",
   "theorems": [
    "C78_transparent",
    "C78_nested"
   ],
   "note": "The outcome and the effects of the function are unchanged and one line follows, also when it raises; nested timed functions print one line per level, inner first, with durations in order. print itself does not raise."
  },
  {
   "property": "C79",
   "status": "proved",
   "theorems": [
    "C79_scale",
    "C79_ticks",
    "C79_negative"
   ],
   "note": "Bijective and strictly increasing on the nonnegative axis; C79_negative gives the absolute value elsewhere; the ticks are also proved."
  },
  {
   "property": "C80",
   "status": "proved",
   "theorems": [
    "C80_measured",
    "C80_follows"
   ],
   "note": "numpy's unwrap is modelled from its documented algorithm; C80_follows: an angle which moves by less than pi per step is recovered exactly."
  },
  {
   "property": "C81",
   "status": "partial",
   "theorems": [
    "C81_exact",
    "C81_shape_partial",
    "C81_negation"
   ],
   "note": "False unless s is a palindrome: C81_exact gives the shape for every input (the axes are reversed), C81_shape_partial characterises when the claim holds, C81_negation is a witness."
  },
  {
   "property": "C82",
   "status": "partial",
   "theorems": [
    "C82_interpolate_partial",
    "C82_negation"
   ],
   "note": "Every listed axis gets shape[1]: holds only for equal entries (C82_negation)."
  },
  {
   "property": "C83",
   "status": "partial",
   "theorems": [
    "C83_a_matrix_partial",
    "C83_negation"
   ],
   "note": "Proved when n_bands is passed; the default raises for two or more bands (C83_negation)."
  },
  {
   "property": "C84",
   "status": "partial",
   "theorems": [
    "C84_times_partial",
    "C84_negation"
   ],
   "note": "The sampled times are evenly spaced; the fundamental times use the end point and disagree for every axis with two or more steps (C84_negation)."
  },
  {
   "property": "C85",
   "status": "partial",
   "theorems": [
    "C85_collapse_partial",
    "C85_negation"
   ],
   "note": "C85_collapse_partial gives the exact rates produced (squared and reversed); C85_negation refutes the claim."
  },
  {
   "property": "C86",
   "status": "proved",
   "theorems": [
    "C86_branches",
    "C86_potential",
    "C86_gamma",
    "C86_value"
   ],
   "note": ""
  },
  {
   "property": "C87",
   "status": "partial",
   "theorems": [
    "C87_coefficients_partial",
    "C87_negation"
   ],
   "note": "The coefficients are proved correct; the eigenvalues field holds eigenvector components (C87_negation)."
  },
  {
   "property": "C88",
   "status": "partial",
   "theorems": [
    "C88_transposed_partial",
    "C88_real_partial",
    "C88_negation"
   ],
   "note": "The code returns the transpose: entry (i, j) is the element between j and i (C88_transposed_partial); right for real operators (C88_real_partial), wrong for complex ones (C88_negation)."
  },
  {
   "property": "C89",
   "status": "partial",
   "theorems": [
    "C89_identity_partial",
    "C89_identity_negation"
   ],
   "note": "get_identity_operator uses the number of samples for the number of new bands: right when both numbers agree (C89_identity_partial), otherwise the number of wavepackets changes (C89_identity_negation)."
  },
  {
   "property": "C90",
   "status": "partial",
   "theorems": [
    "C90_fractions_partial",
    "C90_fundamental_negation"
   ],
   "note": "Proved for the fundamental transformed list basis; false for a fundamental list basis (C90_fundamental_negation)."
  },
  {
   "property": "C91",
   "status": "partial",
   "theorems": [
    "C91_entries_partial",
    "C91_transposed_negation",
    "C91_order_negation"
   ],
   "note": "The entry formula with the actual (transposed, reordered) indices is C91_entries_partial; the two negations show the orientation and the order differ from the basis."
  },
  {
   "property": "C92",
   "status": "partial",
   "theorems": [
    "C92_cache",
    "C92_cache_sho",
    "C92_elements_partial",
    "C92_elements_negation"
   ],
   "note": "The hash map cache of the generator is proved transparent for every potential and state function (C92_cache, C92_cache_sho). The entries are proved to be the matrix elements for real states normal to the surface; for complex states the conjugate is on the wrong factor (C92_elements_negation)."
  },
  {
   "property": "C93",
   "status": "partial",
   "theorems": [
    "C93_python",
    "C93_generator_partial",
    "C93_generator_negation"
   ],
   "note": "Python: orthonormality on the line and the Schroedinger equation for every n. Generator: the coefficients equal those of the Hermite polynomials modulo 2^64 for every n; the states agree with python up to n = 20, and at n = 21 the wrapped factorial breaks the normalisation (C93_generator_negation). hbar and scipy's eval_hermite are represented by a parameter and the three term recurrence."
  },
  {
   "property": "C94",
   "status": "partial",
   "theorems": [
    "C94_converted_partial",
    "C94_real_states"
   ],
   "note": "Proved for every lattice whose third vector is normal to the others, all potentials, truncations and Bloch fractions, provided the states normal to the surface are real. C94_real_states shows that such states exist for every real potential without a normal Bloch fraction."
  },
  {
   "property": "C95",
   "status": "partial",
   "theorems": [
    "C95_distances_partial",
    "C95_origin_negation",
    "C95_potential_partial"
   ],
   "note": "The claim of the docstring fails (C95_origin_negation); what the code computes is proved: equal spacing, zero at minus the origin."
  },
  {
   "property": "C96",
   "status": "proved",
   "theorems": [
    "C96_dual",
    "C96_bloch"
   ],
   "note": "Proved for every truncation and coefficient vector."
  },
  {
   "property": "C97",
   "status": "proved",
   "theorems": [
    "C97_minimum"
   ],
   "note": "Proved for real data with argmin meeting its contract."
  },
  {
   "property": "C98",
   "status": "partial",
   "theorems": [
    "C98_npy_partial",
    "C98_extension_negation",
    "C98_object_negation"
   ],
   "note": "Proved for paths which end in .npy and numeric results; both restrictions are necessary (two negations). Writes complete; crashes are in C77."
  },
  {
   "property": "C99",
   "status": "partial",
   "theorems": [
    "C99_average_partial",
    "C99_isotropic_partial",
    "C99_negation"
   ],
   "note": "The code samples the direction zero twice: the exact deviation from the mean is proved for every overlap with fewer harmonics than samples, the equality for isotropic overlaps; the negation holds for every number of samples above three."
  },
  {
   "property": "C100",
   "status": "partial",
   "theorems": [
    "C100_shift_partial",
    "C100_shift_negation"
   ],
   "note": "Proved for shifts along the first axis; for other axes the flat shift carries into the next row, with a counterexample."
  },
  {
   "property": "C101",
   "status": "proved",
   "theorems": [
    "C101_displacement"
   ],
   "note": "Proved for all trajectories and lags."
  },
  {
   "property": "C102",
   "status": "partial",
   "theorems": [
    "C102_isf_partial",
    "C102_isf_negation"
   ],
   "note": "The result is the complex conjugate of the mean (proved, with real part, modulus and value at lag zero); the negation is a path with mean i where the code gives -i."
  },
  {
   "property": "C103",
   "status": "partial",
   "theorems": [
    "C103_drift_partial",
    "C103_drift_negation",
    "C103_normalized_negation"
   ],
   "note": "The value the code computes is proved in closed form; the negations hold for all uniform motions (wrong sign and inverse momentum) and all particles at rest away from the origin."
  },
  {
   "property": "C104",
   "status": "partial",
   "theorems": [
    "C104_periodic",
    "C104_average_partial",
    "C104_localised_partial",
    "C104_translated_partial",
    "C104_average_negation",
    "C104_restored_partial",
    "C104_followed_partial"
   ],
   "note": "The expectation of the periodic operator is proved for all bases and numbers of axes. The position itself is proved with one axis; with several axes the code raises unless the number of states is one or the number of axes."
  },
  {
   "property": "C105",
   "status": "proved",
   "theorems": [
    "C105_spread",
    "C105_zero"
   ],
   "note": "Proved for all bases and numbers of axes, for states whose mean phase is not zero."
  },
  {
   "property": "C106",
   "status": "partial",
   "theorems": [
    "C106_x_partial",
    "C106_k_partial",
    "C106_negation",
    "C106_coherent_partial"
   ],
   "note": "Proved with one axis; with several axes the code raises unless the number of points is by accident the number of axes."
  },
  {
   "property": "C107",
   "status": "partial",
   "theorems": [
    "C107_uneven",
    "C107_generate_partial",
    "C107_negation",
    "C107_rejects"
   ],
   "note": "Proved for any fractions (C107_uneven) and for fundamental transformed sample bases; for other sample bases the fractions are wrong (C90), with a negation. eigh is a parameter with the contract of a sorted orthonormal eigendecomposition, satisfiable for every hermitian operator."
  },
  {
   "property": "C108",
   "status": "partial",
   "theorems": [
    "C108_get",
    "C108_slice",
    "C108_round_trip_partial",
    "C108_iterator_negation"
   ],
   "note": "Indices and slices are proved for all values. Round trips are proved for re-iterable collections; a one-shot iterator loses its first wavepacket (negation for all lists)."
  },
  {
   "property": "C109",
   "status": "proved",
   "theorems": [
    "C109_average"
   ],
   "note": "Proved for all lists."
  },
  {
   "property": "C110",
   "status": "partial",
   "theorems": [
    "C110_matrix_partial",
    "C110_eigenstates_partial",
    "C110_generated_partial",
    "C110_negation"
   ],
   "note": "Proved for all bases whose momenta stay inside the grid of the supercell at every sample, in particular for all bases with odd numbers of points. With an even number of points it is false of the code, negation with two points and three samples."
  },
  {
   "property": "C111",
   "status": "partial",
   "theorems": [
    "C111_basis",
    "C111_at_k",
    "C111_hamiltonian_partial",
    "C111_truncated_negation",
    "C111_list_partial",
    "C111_list_negation"
   ],
   "note": "Proved for odd numbers of points, transformed sample bases and all bands (C111_hamiltonian_partial). Negation for truncated sample bases: fewer eigenvalues than states."
  },
  {
   "property": "C112",
   "status": "partial",
   "theorems": [
    "C112_one_partial",
    "C112_two_partial",
    "C112_one_negation",
    "C112_many_axes_negation",
    "C112_default_origin_partial",
    "C112_bands"
   ],
   "note": "The cell is taken from the pair (samples, states) of the wavepacket instead of from the states. Proved with one axis for at least as many samples as points, with two axes for at least as many samples as points of the first axis, and for the default origin with one axis. Negations: with one axis and fewer samples a point of the cell is always lost; with three or more axes the function always raises."
  },
  {
   "property": "C113",
   "status": "partial",
   "theorems": [
    "C113_exact",
    "C113_points_partial",
    "C113_points_raise_negation",
    "C113_points_zero_negation"
   ],
   "note": "The exact state is proved for all indices. For the list, the loop writes state i at point i*n while i*n < number of state points: proved for (n-1)n < number of points of the state basis <= n^2 (C113_points_partial). Negations: more points raise an IndexError, fewer points leave the last state zero."
  },
  {
   "property": "C114",
   "status": "proved",
   "theorems": [
    "C114_orthonormal",
    "C114_translate",
    "C114_peak"
   ],
   "note": "Proved for all shapes; translation and peak when the number of bands divides the number of points."
  },
  {
   "property": "C115",
   "status": "partial",
   "theorems": [
    "C115_probability_partial"
   ],
   "note": "Probabilities proved for all fractions (if all probabilities vanish the code divides by zero). The translation is proved for fractions that differ by a whole number of points of the unit cell: the phases use the index of the momentum in place of its frequency, which makes a difference for others."
  },
  {
   "property": "C116",
   "status": "partial",
   "theorems": [
    "C116_points_partial",
    "C116_z_negation",
    "C116_axis_negation",
    "C116_axis_partial"
   ],
   "note": "The spline is a parameter which passes through its points. Values proved for axes refined by factors (C116_points_partial). Negations: the spline is evaluated at heights k*D/(n-1) while the basis of the result has its points at k*D/n (C116_z_negation); along an axis which is not the last the values are written to a copy and the array returned is uninitialised (C116_axis_negation). Also raises for fewer than four heights."
  },
  {
   "property": "C117",
   "status": "proved",
   "theorems": [
    "C117_phase",
    "C117_point_state",
    "C117_point"
   ],
   "note": "Proved for all wavepackets with the samples in the fundamental transformed basis; the singular value decomposition of a 1 x 1 matrix is a parameter with its contract."
  },
  {
   "property": "C118",
   "status": "proved",
   "theorems": [
    "C118_points",
    "C118_orthonormal",
    "C118_many_negation"
   ],
   "note": "Points proved for all shapes, orthonormality if there are not more states than points in any direction; C118_many_negation: otherwise two of the states are the same."
  },
  {
   "property": "C119",
   "status": "partial",
   "theorems": [
    "C119_two_partial",
    "C119_width_negation",
    "C119_axes_negation",
    "C119_exponential_negation"
   ],
   "note": "Two axes: normalized gaussian, largest at the origin (C119_two_partial), but its widths are the number of samples and the number of states, the shape of the pair of bases, in place of the shape of the unit cell (C119_width_negation), and the origin is wrapped by these. Any other number of axes raises (C119_axes_negation). get_exponential_state always raises (C119_exponential_negation)."
  },
  {
   "property": "C120",
   "status": "partial",
   "theorems": [
    "C120_kernel",
    "C120_diagonal",
    "C120_isotropic_partial",
    "C120_isotropic_negation",
    "C120_operators",
    "C120_diagonal_operators"
   ],
   "note": "Full and diagonal kernels proved. The values of an isotropic kernel are converted as those of a function of the displacement (C120_isotropic_partial); this is not the conversion of the noise: C120_isotropic_negation, positions to momenta."
  },
  {
   "property": "C121",
   "status": "proved",
   "theorems": [
    "C121_overlaps",
    "C121_file"
   ],
   "note": "The elements are proved for bases which are tuples of axes with orthonormal states. Finding the block in the text of the file, and the program wannier90, are not modelled."
  },
  {
   "property": "C122",
   "status": "proved",
   "theorems": [
    "C122_operator",
    "C122_localized"
   ],
   "note": "For a square matrix (as many localised states as bands), the form in which wannier90 writes the file; the words are read by functions standing for python's int and float."
  },
  {
   "property": "C123",
   "status": "partial",
   "theorems": [
    "C123_projections",
    "C123_samples_partial"
   ],
   "note": "The order and values of the projections are proved (C123_projections); the samples for the fundamental transformed list basis (C123_samples_partial; for others see C90). The lattice block and the text of the files are not modelled."
  },
  {
   "property": "C124",
   "status": "partial",
   "theorems": [
    "C124_reflection",
    "C124_exchange_partial",
    "C124_exchange_negation",
    "C124_representative_partial",
    "C124_representative_negation"
   ],
   "note": "The reflection is proved. Exchange for equally many samples only: C124_exchange_negation (two by three). Representatives for a single operation only: C124_representative_negation, reflection and exchange on three by three samples. The file of symmetries itself is never written: _build_dmn_file raises NotImplementedError."
  },
  {
   "property": "C125",
   "status": "partial",
   "theorems": [
    "C125_position_partial",
    "C125_list",
    "C125_momentum_negation"
   ],
   "note": "Proved for bases whose states are points of the grid; C125_momentum_negation: probabilities are converted like amplitudes, so that the total in the momentum basis is zero for a certain position."
  },
  {
   "property": "C126",
   "status": "partial",
   "theorems": [
    "C126_position",
    "C126_position_default",
    "C126_momentum",
    "C126_momentum_default",
    "C126_line_default_partial",
    "C126_line_negation",
    "C126_line_x",
    "C126_line_k"
   ],
   "note": "Slices, coordinates and lines are proved for given indices and the default of all functions but plot_data_1d_k, which takes the index of the largest value before the conversion to momentum space (C126_line_default_partial, C126_line_negation). matplotlib, labels, margins and errors bars are not modelled; measures are those of C78."
  },
  {
   "property": "C127",
   "status": "partial",
   "theorems": [
    "C127_limits",
    "C127_animation",
    "C127_surface_partial",
    "C127_surface_measure_negation",
    "C127_surface_frames_negation"
   ],
   "note": "Limits are proved. animate_data_through_surface_x: proved for absolute values along the third axis, and negations for other measures (it does not pass the measure on) and orders of the axes (it counts the frames along the third axis of the data, and raises for flat data)."
  },
  {
   "property": "C128",
   "status": "partial",
   "theorems": [
    "C128_occupations_partial",
    "C128_unchanged_negation",
    "C128_again",
    "C128_eigenvalues"
   ],
   "note": "Proved for real energies, apart from C128_unchanged_negation: `energies -= np.min(energies)` changes the eigenvalues of the caller. np.argsort is used through its contract."
  },
  {
   "property": "C129",
   "status": "partial",
   "theorems": [
    "C129_frequency_partial",
    "C129_absolute",
    "C129_frequency_negation",
    "C129_split_time",
    "C129_split_frequency_partial",
    "C129_all",
    "C129_average_partial",
    "C129_average_negation"
   ],
   "note": "Proved for times with step one or offset zero, and for absolute values in general (C129_absolute); C129_frequency_negation: for other times the phase is wrong, since the data is rolled by the offset in units of the fundamental times. C129_average_negation: the average is measured twice, so that averages of imaginary parts are drawn as zero. Histograms of distributions (scipy.stats) are not modelled."
  },
  {
   "property": "C130",
   "status": "partial",
   "theorems": [
    "C130_diagonals",
    "C130_norm",
    "C130_operator_partial",
    "C130_diagonal_partial",
    "C130_operator_negation"
   ],
   "note": "The diagonals are proved. The counts are proved for values of at least 1e-22 and below the next point; C130_operator_negation: the count is drawn at the lower edge of its bin. np.histogram is modelled from its documentation."
  },
  {
   "property": "C131",
   "status": "partial",
   "theorems": [
    "C131_minimum",
    "C131_along",
    "C131_drawn_partial",
    "C131_drawn_negation"
   ],
   "note": "Proved for all paths; the plot of the minimum for potentials stored by their values, with C131_drawn_negation for other bases (the minimum is searched for among the coefficients)."
  },
  {
   "property": "C132",
   "status": "partial",
   "theorems": [
    "C132_rates_partial",
    "C132_small_negation",
    "C132_function_negation"
   ],
   "note": "Proved for supercells of at least three by three cells. C132_small_negation: in smaller ones the rates are doubled, and with one cell along an axis it raises. C132_function_negation: get_collapse_operators_from_function always raises with more than one state. qutip is not modelled: an operator is the list of entries given to it."
  },
  {
   "property": "C133",
   "status": "partial",
   "theorems": [
    "C133_occupations",
    "C133_average",
    "C133_total_partial",
    "C133_total_negation"
   ],
   "note": "Proved for all sizes; the total only for states with two axes, with C133_total_negation for the states of a simulation, where it draws a line per band."
  },
  {
   "property": "C134",
   "status": "partial",
   "theorems": [
    "C134_diagonal_error",
    "C134_full_error",
    "C134_sample_partial",
    "C134_sample_negation",
    "C134_eigenvalues_partial",
    "C134_eigenvalues_negation",
    "C134_percentage"
   ],
   "note": "C134_diagonal_error and C134_full_error in full. Samples: C134_sample_partial on given axes without truncation; C134_sample_negation: without axes it raises, and a truncation takes the operators from the list before truncation. Eigenvalues: C134_eigenvalues_partial without truncation; C134_eigenvalues_negation: a truncation t draws the N-1-t largest."
  },
  {
   "property": "C135",
   "status": "proved",
   "theorems": [
    "C135_free_particle",
    "C135_limit",
    "C135_exact_negation",
    "C135_scale",
    "C135_drawn"
   ],
   "note": "C135_free_particle gives the effective mass of a free particle in closed form for an odd number of samples in one dimension, C135_limit its limit for every band, C135_exact_negation: for finitely many samples it differs from the mass. C135_scale and C135_drawn for any energies."
  },
  {
   "property": "C136",
   "status": "partial",
   "theorems": [
    "C136_eigenstates",
    "C136_single",
    "C136_bands_partial",
    "C136_marked_negation",
    "C136_thermal"
   ],
   "note": "C136_eigenstates, C136_single and C136_thermal in full. Bands: C136_bands_partial, with the marked energy the mean energy only for flat bands; C136_marked_negation: for bands with dispersion it is not. The state is given by its values at the points of the large cell."
  },
  {
   "property": "C137",
   "status": "partial",
   "theorems": [
    "C137_position",
    "C137_momentum",
    "C137_exchange",
    "C137_path_partial",
    "C137_path_negation"
   ],
   "note": "C137_position, C137_momentum, C137_exchange in full for a given index (where both states vanish numpy gives nan, the model zero). C137_path_partial for paths inside the range of numpy's indices; C137_path_negation: a path once around the cell raises, although the potential can be drawn along it."
  },
  {
   "property": "C138",
   "status": "partial",
   "theorems": [
    "C138_frequencies",
    "C138_fractions",
    "C138_distinct",
    "C138_line_k",
    "C138_line_x",
    "C138_lines",
    "C138_lines_negation",
    "C138_plane",
    "C138_uneven",
    "C138_points_partial",
    "C138_points_negation"
   ],
   "note": "C138_frequencies, C138_fractions, C138_distinct, C138_line_k, C138_line_x, C138_lines, C138_plane, C138_uneven in full for lists of fundamental samples. C138_lines_negation: in two dimensions each line goes through the largest energy of its own band, so that lines of different bands belong to different momenta. C138_points_partial draws the given slice; C138_points_negation: the default slice is not that at index zero (the number of axes is taken from the pair of bases)."
  },
  {
   "property": "C139",
   "status": "proved",
   "theorems": [
    "C139_solution",
    "C139_initial",
    "C139_offset_negation"
   ],
   "note": "C139_solution (agreement, with times counted from the first time), C139_initial; the external solver is a parameter with its documented contract (exists_sesolve shows that it can be met). C139_offset_negation: for times with an offset the two solvers disagree."
  },
  {
   "property": "C140",
   "status": "partial",
   "theorems": [
    "C140_corrected",
    "C140_full",
    "C140_gaussian_partial",
    "C140_truncated",
    "C140_effective_partial",
    "C140_effective_operators_partial",
    "C140_effective_isotropic_partial",
    "C140_linear_stacked",
    "C140_isotropic"
   ],
   "note": "C140_corrected, C140_full and C140_truncated in full for orthonormal bases. C140_gaussian_partial and C140_effective_partial: the noise of the functions, on orthogonal lattices and without truncation (false otherwise: C64_oblique_negation). C140_linear_stacked: the linear operators do not have the gaussian kernel, but the product over the axes of a² times the Taylor polynomial of exp(-xy/2λ²) (for more than one axis not of size a²). C140_isotropic: only the diagonals of operators count."
  },
  {
   "property": "C141",
   "status": "partial",
   "theorems": [
    "C141_with_shape",
    "C141_with_shape_raises",
    "C141_refined",
    "C141_coincide",
    "C141_fundamental",
    "C141_axis",
    "C141_single",
    "C141_from_shape",
    "C141_default",
    "C141_three",
    "C141_stacked_shape",
    "C141_mirror_twice",
    "C141_mirror_partial",
    "C141_mirror_negation",
    "C141_fractions",
    "C141_fundamental_fractions",
    "C141_explicit_fractions",
    "C141_ndim_negation"
   ],
   "note": "Bases from others, from shapes and fractions in full. C141_mirror_partial: the mirror image, for equal numbers of points and lengths of the first two vectors, and the other vectors at right angles to their difference (false for different numbers of points: C141_mirror_negation). C141_ndim_negation: the dimension reported for evenly spaced fractions is the number of states rather than one."
  },
  {
   "property": "C142",
   "status": "partial",
   "theorems": [
    "C142_energy_partial",
    "C142_ratio",
    "C142_free_particle_negation",
    "C142_bands_negation",
    "C142_drawn",
    "C142_occupation"
   ],
   "note": "C142_energy_partial: the matrix element, for one band. False in the rest: C142_ratio, the mass from localised states is that from the Fourier series times the root of the number of samples; C142_free_particle_negation, for a free particle it grows beyond every bound; C142_bands_negation, with two or more bands localised one by one the energy read for the first band is zero, whatever the energies. C142_drawn and C142_occupation: the points drawn, in full."
  },
  {
   "property": "C143",
   "status": "partial",
   "theorems": [
    "C143_position",
    "C143_difference",
    "C143_states_position",
    "C143_momentum",
    "C143_wave_vector",
    "C143_states_momentum",
    "C143_path_partial",
    "C143_energies",
    "C143_samples_partial",
    "C143_samples_default_partial",
    "C143_phase_negation",
    "C143_occupation"
   ],
   "note": "In full for slices, all states, differences, energies in position space and occupations. C143_path_partial: paths inside the large cell (others raise, C137_path_negation). The last part of the claim is false: C143_samples_partial and C143_samples_default_partial say which energies are drawn by plot_eigenvalues_1d_x, C143_phase_negation that they are not in the order of the Bloch phase with which the axis is labelled."
  },
  {
   "property": "C144",
   "status": "partial",
   "theorems": [
    "C144_double_bounds",
    "C144_double_exact",
    "C144_labels_negation",
    "C144_symmetric_110",
    "C144_symmetric_112bar",
    "C144_fey_110",
    "C144_fey_112bar",
    "C144_four_variable",
    "C144_fixed_ratio",
    "C144_fixed_ratio_times",
    "C144_extract_partial",
    "C144_extract_exists",
    "C144_extract_negation",
    "C144_extract_exchange"
   ],
   "note": "curve_fit gives least squares within the bounds where these exist, fsolve a root (hypotheses). The claim about the names is false: C144_labels_negation for the double exponential, and C144_symmetric_110 / C144_symmetric_112bar show that the jump model itself is unchanged when the rates are exchanged (C144_extract_exchange for the extracted ones). C144_extract_partial assumes a root; C144_extract_exists says exactly when rates can be extracted; C144_extract_negation gives decay rates (ratio two) for which none exist, and the code then only prints a warning. The standard deviations of the data are read but not used."
  },
  {
   "property": "C145",
   "status": "proved",
   "theorems": [
    "C145_diagonal",
    "C145_same",
    "C145_round_trip",
    "C145_full",
    "C145_wavepackets",
    "C145_phases",
    "C145_flat_negation",
    "C145_single"
   ],
   "note": "The claim about the flat view is false: C145_flat_negation (its basis is that of a list of full operators)."
  },
  {
   "property": "C146",
   "status": "partial",
   "theorems": [
    "C146_components",
    "C146_covariance",
    "C146_line",
    "C146_displacements_partial",
    "C146_displacements_negation"
   ],
   "note": "C146_displacements_partial is for orthogonal lattices; for a tilted lattice the claim is false (C146_displacements_negation)."
  },
  {
   "property": "C147",
   "status": "proved",
   "theorems": [
    "C147_position",
    "C147_momentum",
    "C147_routes",
    "C147_dual",
    "C147_wavepacket",
    "C147_potential"
   ],
   "note": ""
  },
  {
   "property": "C148",
   "status": "partial",
   "theorems": [
    "C148_tight_binding_partial",
    "C148_one_axis_partial",
    "C148_gaussian_partial",
    "C148_gaussian_negation",
    "C148_tight_binding_negation",
    "C148_exponential_negation",
    "C148_bands_partial"
   ],
   "note": "True where a tight binding state is returned, which C148_one_axis_partial shows for one axis and at least as many samples as points; with three or more axes both functions raise, the gaussian one also with one axis (C148_gaussian_negation, C148_tight_binding_negation). The width of the gaussian is not that of the unit cell (C119_width_negation). localize_exponential_decay_projection raises for every wavepacket (C148_exponential_negation)."
  },
  {
   "property": "C149",
   "status": "partial",
   "theorems": [
    "C149_elements",
    "C149_hermitian",
    "C149_eigenstates_partial",
    "C149_localize_negation",
    "C149_wavepacket_negation"
   ],
   "note": "The matrix and its eigenstates are as claimed. The functions which return localised states raise: the loop runs over the single entries of the flat array of the eigenvectors (C149_localize_negation). localize_position_operator and localize_position_operator_many_band_individual raise for every wavepacket as well (C149_wavepacket_negation)."
  },
  {
   "property": "C150",
   "status": "partial",
   "theorems": [
    "C150_sites_111",
    "C150_sites_100",
    "C150_comparison_partial",
    "C150_comparison_sites",
    "C150_offset_negation",
    "C150_slice",
    "C150_difference",
    "C150_animation_partial",
    "C150_animation_difference_partial",
    "C150_animation_negation",
    "C150_uneven",
    "C150_uneven_comparison",
    "C150_locations",
    "C150_all_z"
   ],
   "note": "Comparison points are not wrapped into the grid, so that a comparison with an offset can raise (C150_offset_negation). Animations show the data before the conversion to points: for plane waves the amplitudes (C150_animation_negation); for potentials given at points they are as claimed."
  },
  {
   "property": "C151",
   "status": "partial",
   "theorems": [
    "C151_elements_partial",
    "C151_diagonal",
    "C151_total_negation"
   ],
   "note": "The energies on the diagonal and the elements from the compiled code are as claimed (the latter for at most 21 oscillator states, compare C93). The function itself always raises: it passes the number of states by position to a function which takes it by keyword only (C151_total_negation)."
  },
  {
   "property": "C152",
   "status": "partial",
   "theorems": [
    "C152_two_points",
    "C152_maximum",
    "C152_mirror",
    "C152_locations_partial",
    "C152_fraction_negation",
    "C152_truncated_negation"
   ],
   "note": "Proved for bases which are not truncated. Two parts of the claim are false of the code: in a truncated basis the indices are wrapped by the wrong cell (C152_truncated_negation), and the locations are numbers of grid points, not fractions of the unit cell (C152_fraction_negation)."
  },
  {
   "property": "C153",
   "status": "partial",
   "theorems": [
    "C153_bragg",
    "C153_x_plane",
    "C153_x_plane_outside",
    "C153_zone_partial",
    "C153_zone_negation",
    "C153_k_plane_partial",
    "C153_k_plane_negation",
    "C153_x_index_partial",
    "C153_x_index_negation"
   ],
   "note": "Bragg points and points of a plane in position are proved. False of the code: the plane in reciprocal space is sliced along the wrong axis (C153_k_plane_negation, what is drawn for the axes 0 and 1 is C153_k_plane_partial); the index itself is drawn in place of its position (C153_x_index_negation, right on unit grids C153_x_index_partial); the points drawn for the Brillouin zone may lie outside (C153_zone_negation, equivalent points no further from the origin C153_zone_partial)."
  },
  {
   "property": "C154",
   "status": "partial",
   "theorems": [
    "C154_lines_x",
    "C154_lines_k",
    "C154_slices",
    "C154_default_x_partial",
    "C154_default_k_partial",
    "C154_default_slices_partial",
    "C154_default_negation"
   ],
   "note": "Proved with an index. False of the code without one: each frame goes through the maximum of its own state (C154_default_x_partial, C154_default_k_partial, C154_default_slices_partial), so the frames may show different lines (C154_default_negation)."
  },
  {
   "property": "C155",
   "status": "partial",
   "theorems": [
    "C155_position",
    "C155_position_diagonal",
    "C155_position_default",
    "C155_line_n",
    "C155_diagonal_partial",
    "C155_diagonal_negation"
   ],
   "note": "Position space is proved. Entries against their index: proved in the fundamental basis (C155_diagonal_partial); false in other bases, where the diagonal is converted like a vector (C155_diagonal_negation: the identity between two momentum states is drawn as sqrt 2, 0)."
  },
  {
   "property": "C156",
   "status": "partial",
   "theorems": [
    "C156_values",
    "C156_fit_partial",
    "C156_fit_negation",
    "C156_states_partial",
    "C156_sparsity"
   ],
   "note": "Proved without a distribution and for the sparsity. With a distribution outliers are not counted (C156_fit_negation: of the values 1 and seventeen times 0 the first is outside the histogram); at least 15 of 16 values are (C156_fit_partial). States along several axes raise (C106_negation)."
  },
  {
   "property": "C157",
   "status": "partial",
   "theorems": [
    "C157_isf_partial",
    "C157_isf_negation",
    "C157_equilibrium_negation",
    "C157_jump_negation"
   ],
   "note": "False: all six functions raise for every input, because they take the third entry of the pair of bases of an operator (C157_isf_negation, C157_equilibrium_negation, C157_jump_negation). C157_isf_partial proves the claims about the scattering function for occupations on the basis of the simulation itself."
  },
  {
   "property": "C158",
   "status": "partial",
   "theorems": [
    "C158_operator",
    "C158_kernel",
    "C158_diagonal_kernel_partial",
    "C158_diagonal_kernel_negation",
    "C158_eigenvalues",
    "C158_occupations",
    "C158_sample_partial",
    "C158_isotropic",
    "C158_error_partial"
   ],
   "note": "plot_diagonal_kernel_2d raises for operators between bases of different sizes (C158_diagonal_kernel_negation). Errors for a true kernel in another basis than that of the points are not covered. Samples drawn without given axes raise, and a truncation takes the wrong operators (C134_sample_negation)."
  },
  {
   "property": "C159",
   "status": "partial",
   "theorems": [
    "C159_displacement_partial",
    "C159_isf_partial",
    "C159_drift_partial",
    "C159_momentum_partial",
    "C159_spread_partial",
    "C159_distribution_partial",
    "C159_values",
    "C159_negation"
   ],
   "note": "Proved for one axis. With several axes the plots raise, except when there is one time or by accident as many times as axes (C159_negation). The drift drawn is that of C103, with its defects (sign, inverse momenta)."
  },
  {
   "property": "C160",
   "status": "partial",
   "theorems": [
    "C160_series",
    "C160_average_negation",
    "C160_four_variable",
    "C160_fey_110",
    "C160_fey_112bar",
    "C160_fey_four_variable",
    "C160_rates_partial",
    "C160_rates_negation"
   ],
   "note": "plot_average_isf_against_time always raises (C160_average_negation). The rates of get_rate_decomposition are entries of an eigenstate, so that no rates are drawn for them (C160_rates_negation); proved for decompositions which hold the eigenvalues."
  },
  {
   "property": "C161",
   "status": "partial",
   "theorems": [
    "C161_state_partial",
    "C161_default",
    "C161_wavepacket_partial",
    "C161_state_negation"
   ],
   "note": "The number of frames is that of the third axis of the basis: proved for axes of this length; along other axes the animation raises or omits points (C161_state_negation)."
  },
  {
   "property": "C162",
   "status": "partial",
   "theorems": [
    "C162_position_partial",
    "C162_momentum_partial",
    "C162_negation",
    "C162_states"
   ],
   "note": "Proved for probabilities of positions drawn in position space and of plane waves drawn in momentum space. Otherwise probabilities are converted as amplitudes (C162_negation)."
  },
  {
   "property": "C163",
   "status": "partial",
   "theorems": [
    "C163_overlap_partial",
    "C163_path_negation"
   ],
   "note": "The plots along a path raise for every overlap (C163_path_negation)."
  },
  {
   "property": "C164",
   "status": "partial",
   "theorems": [
    "C164_elements_partial",
    "C164_states"
   ],
   "note": "The matrix elements are proved for real states normal to the surface, as in C94; the sampled states for numbers of points which are multiples of the resolution."
  },
  {
   "property": "C165",
   "status": "proved",
   "theorems": [
    "C165_potential",
    "C165_oscillator",
    "C165_rejects"
   ],
   "note": "The eigenvalue routine is a parameter with a contract (exists_eighRoutine shows that it can be met)."
  },
  {
   "property": "C166",
   "status": "partial",
   "theorems": [
    "C166_states",
    "C166_state",
    "C166_masses_partial"
   ],
   "note": "The masses are proved for a free particle and an odd number of samples only (C135)."
  },
  {
   "property": "C167",
   "status": "partial",
   "theorems": [
    "C167_trajectories_partial",
    "C167_rejects",
    "C167_negation"
   ],
   "note": "False with collapse operators (C167_negation): both states are added to the list of kets, the list of bras stays empty, and the states are unit vectors of the basis of the operator itself, so that only ones are passed. Proved without collapse operators. The compiled solver is a parameter."
  },
  {
   "property": "C168",
   "status": "proved",
   "theorems": [
    "C168_files",
    "C168_operator",
    "C168_bands",
    "C168_symmetry"
   ],
   "note": "wannier90 is a parameter: two functions, of which is assumed what they give for the files described by the specification. Finding the block of neighbours in the text and the formatting of numbers are not modelled."
  },
  {
   "property": "C169",
   "status": "partial",
   "theorems": [
    "C169_grid_partial",
    "C169_grid_negation",
    "C169_mock",
    "C169_heights_negation",
    "C169_ragged",
    "C169_locations"
   ],
   "note": "False as stated: the data which are read have three axes (C169_grid_negation), and the number of heights is not checked (C169_heights_negation). Proved for the data reshaped to one dimension, as mock_even_potential does."
  },
  {
   "property": "C170",
   "status": "proved",
   "theorems": [
    "C170_slice",
    "C170_integer",
    "C170_newaxis",
    "C170_raises",
    "C170_positions",
    "C170_spaced",
    "C170_halves"
   ],
   "note": "The meaning numpy gives to an index (basic indexing) and python to slice.indices is modelled in Model/SliceAlong.lean and trusted to be right."
  },
  {
   "property": "C171",
   "status": "partial",
   "theorems": [
    "C171_position",
    "C171_momentum",
    "C171_slice_partial",
    "C171_truncated_negation"
   ],
   "note": "False of bases with fewer states than points (C171_truncated_negation): the coordinates have too many rows, or an error is raised. C171_slice_partial is for bases with as many states as points."
  }
 ]
}