{"id": "C01", "title": "Frequency padding keeps every common frequency in its slot", "statement": "pad_ft_points(array, s, axes) returns an array whose length along each padded axis is exactly s; the coefficient of every frequency that exists on both the old and the new FFT grid is the input coefficient of that same frequency, and every other coefficient of the result is zero.", "quantifier": "every input length, every target length (longer, shorter, equal, odd, even, 0 and 1), every data array, every number of padded axes", "why_tests_cant": "The start/end slices depend on the parity of two lengths; a test fixes a handful of parities and never covers all pairs of lengths.", "anchors": ["surface_potential_analysis/util/interpolation.py:pad_ft_points"]}
{"id": "C02", "title": "Padding up then truncating back is the identity; truncating then padding is a projection", "statement": "pad_ft_points to a longer length and back returns the original array; going down and back up is idempotent and only zeroes frequencies that do not exist on the short grid.", "quantifier": "all lengths m <= n and all arrays", "why_tests_cant": "Needs all parity combinations and all data.", "anchors": ["surface_potential_analysis/util/interpolation.py:pad_ft_points"]}
{"id": "C03", "title": "Momentum labels are the centred residues in FFT order", "statement": "BasisUtil.nk_points of a basis with n states lists n integers; entry j is congruent to j modulo n, lies in [-n/2, n/2) and the list is therefore the unique centred residue system, in numpy FFT order, equal to wrapping j around the origin.", "quantifier": "every n >= 1 and every position j < n", "why_tests_cant": "Off-by-one and parity behaviour depends on n for all n.", "anchors": ["surface_potential_analysis/basis/util.py:BasisUtil.nk_points", "surface_potential_analysis/basis/util.py:BasisUtil.fundamental_nk_points"]}
{"id": "C04", "title": "Flat and stacked indices are mutually inverse", "statement": "For a stacked basis, get_flat_index(get_stacked_index(i)) = i for every valid flat index and get_stacked_index(get_flat_index(idx)) = idx for every valid stacked index; flat indices are in range; mode 'wrap' reduces each coordinate modulo its axis length, 'clip' clamps it, and 'raise' raises exactly on out-of-range coordinates.", "quantifier": "every number of axes, every shape, every index", "why_tests_cant": "Unbounded number of dimensions and sizes.", "anchors": ["surface_potential_analysis/basis/util.py:BasisUtil.get_flat_index", "surface_potential_analysis/basis/util.py:BasisUtil.get_stacked_index"]}
{"id": "C05", "title": "Wrapping an index stays in a window round the origin and only adds whole periods", "statement": "wrap_index_around_origin returns an index congruent to the given one modulo the axis length, inside the window [origin - L//2, origin - L//2 + L); it is idempotent, periodic, and equal for equivalent indices.", "quantifier": "every index, origin and positive length, every selection of axes", "why_tests_cant": "Integer arithmetic with signs and parity; universally quantified.", "anchors": ["surface_potential_analysis/stacked_basis/util.py:wrap_index_around_origin", "surface_potential_analysis/stacked_basis/util.py:_wrap_index"]}
{"id": "C06", "title": "Wrapping a position only moves it by a lattice vector into the centred unit cell", "statement": "wrap_x_point_around_origin returns a point that differs from the input by an integer combination of the lattice vectors and whose fractional coordinates relative to the origin lie in [-1/2, 1/2).", "quantifier": "every invertible lattice, point and origin, in every dimension", "why_tests_cant": "Continuum of lattices and points.", "anchors": ["surface_potential_analysis/stacked_basis/util.py:wrap_x_point_around_origin", "surface_potential_analysis/stacked_basis/util.py:_wrap_distance"]}
{"id": "C07", "title": "get_data_in_axes selects and orders exactly the requested axes", "statement": "get_data_in_axes(data, axes, idx) returns the array whose coordinates, in the order given by axes, run over those axes of data while the remaining axes are fixed, in order, at idx.", "quantifier": "every dimension, every list of distinct axes in any order, every idx and every data array", "why_tests_cant": "All permutations of all subsets of axes in any dimension.", "anchors": ["surface_potential_analysis/util/util.py:get_data_in_axes", "surface_potential_analysis/util/util.py:slice_ignoring_axes", "surface_potential_analysis/util/util.py:get_position_in_sorted"]}
{"id": "C08", "title": "Cumulative distance along a path", "statement": "The cumulative distances along a path start at 0, have one entry per path point, never decrease, dominate the straight-line distance and are consistent under splitting the path; the position-space and momentum-space versions both do this.", "quantifier": "every path and coordinate grid, any dimension", "why_tests_cant": "All path lengths; the k-space version is false of the code (it takes the norm over the wrong axis).", "anchors": ["surface_potential_analysis/util/util.py:calculate_cumulative_distances_along_path", "surface_potential_analysis/stacked_basis/util.py:calculate_cumulative_x_distances_along_path", "surface_potential_analysis/stacked_basis/util.py:calculate_cumulative_k_distances_along_path"]}
{"id": "C09", "title": "Going to the transformed representation and back is lossless and norm preserving", "statement": "For the fundamental basis of any size, converting a vector into the fundamental transformed basis and back returns the vector, and inner products are unchanged in either direction.", "quantifier": "every size and every pair of complex vectors", "why_tests_cant": "Exact statement about all sizes and vectors (over the reals).", "anchors": ["surface_potential_analysis/basis/basis_like.py:AsFundamentalBasis.__into_transformed__", "surface_potential_analysis/basis/basis_like.py:BasisLike.__from_transformed__", "surface_potential_analysis/basis/basis.py:FundamentalTransformedBasis"]}
{"id": "C10", "title": "Vector conversion does not depend on the internal route", "statement": "convert_vector between any two bases with the same fundamental size equals 'expand to the fundamental states then project', whichever of the three internal routes (same basis, both momentum-like, generic) is taken; mismatched fundamental sizes raise.", "quantifier": "every pair of supported bases and every vector", "why_tests_cant": "Pairs of all basis kinds with all sizes.", "anchors": ["surface_potential_analysis/basis/basis_like.py:BasisLike.__convert_vector_into__", "surface_potential_analysis/basis/basis_like.py:convert_vector"]}
{"id": "C11", "title": "Round trips between bases are lossless exactly when no state is dropped", "statement": "convert_vector from b to c and back to b is the identity if every state of b lies in the span of c; converting out to the fundamental basis and back is always the identity, and converting from the fundamental basis to b and back is the orthogonal projection on the span of b.", "quantifier": "every basis and every vector", "why_tests_cant": "All bases, sizes and vectors.", "anchors": ["surface_potential_analysis/basis/basis_like.py:convert_vector"]}
{"id": "C12", "title": "Conversion to and from a basis are adjoint", "statement": "The inner product of convert_vector(v, b, c) with w equals the inner product of v with convert_vector(w, c, b); conversion to the fundamental basis preserves norms and conversion in general never increases them.", "quantifier": "every pair of bases of equal fundamental size and all vectors", "why_tests_cant": "Universally quantified analytic identity.", "anchors": ["surface_potential_analysis/basis/basis_like.py:convert_vector", "surface_potential_analysis/basis/basis_like.py:convert_dual_vector"]}
{"id": "C13", "title": "Evenly spaced bases select the states offset + step*j (mod n*step)", "statement": "Converting basis state j of an evenly spaced basis (n, step, offset) to the fundamental basis gives the fundamental state (offset + step*j) mod (n*step), converting back reads the same entry; likewise in momentum space for the transformed version.", "quantifier": "every n, step >= 1 and every (also negative or large) integer offset", "why_tests_cant": "Roll/stride arithmetic for all signs and sizes.", "anchors": ["surface_potential_analysis/basis/evenly_spaced_basis.py:_pad_sample_axis", "surface_potential_analysis/basis/evenly_spaced_basis.py:_truncate_sample_axis", "surface_potential_analysis/basis/evenly_spaced_basis.py:EvenlySpacedBasis", "surface_potential_analysis/basis/evenly_spaced_basis.py:EvenlySpacedTransformedBasis"]}
{"id": "C14", "title": "Truncated bases keep exactly the lowest |frequency| states", "statement": "State j of a truncated basis with n states of N is the state whose centred label is the centred label of j modulo n; the labels kept are exactly the N-grid labels in [-n/2, n/2), with the same label under both numberings.", "quantifier": "all n <= N, all j < n", "why_tests_cant": "All parities and sizes.", "anchors": ["surface_potential_analysis/basis/basis.py:TruncatedBasis", "surface_potential_analysis/basis/basis.py:TransformedBasis"]}
{"id": "C15", "title": "A stacked basis converts axis by axis and the order of axes does not matter", "statement": "Converting a flattened vector between stacked bases equals applying the one-axis conversions to the tensor in any order, it maps product states to product states, and the resulting length is the product of the target sizes.", "quantifier": "every number of axes and every basis per axis", "why_tests_cant": "Unbounded dimension.", "anchors": ["surface_potential_analysis/basis/stacked_basis.py:_convert_tuple_basis_vector", "surface_potential_analysis/basis/stacked_basis.py:TupleBasis.__convert_vector_into__"]}
{"id": "C16", "title": "Explicit bases of orthonormal states behave as isometries", "statement": "For an explicit basis given by orthonormal states, expanding coefficients and projecting back is the identity, and projecting then expanding is the orthogonal projection on the span.", "quantifier": "every finite orthonormal family in every parent basis", "why_tests_cant": "All families and dimensions.", "anchors": ["surface_potential_analysis/basis/explicit_basis.py:ExplicitBasis.__from_state_basis__", "surface_potential_analysis/basis/explicit_basis.py:ExplicitBasis.__into_state_basis__", "surface_potential_analysis/basis/explicit_basis.py:ExplicitBasis.__into_fundamental__"]}
{"id": "C17", "title": "Dual vectors and matrices convert covariantly", "statement": "The pairing of a converted dual vector with a converted vector, the action of a converted matrix on a converted vector and Hermiticity are preserved under lossless conversion; convert_matrix equals B M B^dagger with B the vector conversion.", "quantifier": "every pair of bases, matrix and vector", "why_tests_cant": "Universally quantified.", "anchors": ["surface_potential_analysis/basis/basis_like.py:convert_dual_vector", "surface_potential_analysis/basis/basis_like.py:convert_matrix"]}
{"id": "C18", "title": "Converting a vector to the basis it is already in returns it unchanged", "statement": "convert_vector(v, b, b) returns v with the same length, for real and complex input data.", "quantifier": "every basis and every real or complex vector", "why_tests_cant": "False of the code for real input: the bytes are reinterpreted as complex numbers. Only a proof covers all even/odd lengths.", "anchors": ["surface_potential_analysis/basis/basis_like.py:BasisLike.__convert_vector_into__"]}
{"id": "C19", "title": "Fourier interpolation passes through the given points", "statement": "interpolate_points_fftn onto a grid refined by an integer factor takes the original values at the original points, in any number of axes, and interpolating to the same shape is the identity.", "quantifier": "every input length, refinement factor, complex data and number of axes", "why_tests_cant": "All parities and sizes.", "anchors": ["surface_potential_analysis/util/interpolation.py:interpolate_points_fftn"]}
{"id": "C20", "title": "Real Fourier interpolation keeps data real and passes through the points", "statement": "interpolate_points_rfft / rfftn return real data and, for a grid refined by an integer factor, take the original values at the original points.", "quantifier": "every length, factor and real data; the Nyquist coefficient of an even grid needs care", "why_tests_cant": "Even lengths behave differently from odd ones; false for even lengths in general.", "anchors": ["surface_potential_analysis/util/interpolation.py:interpolate_points_rfft", "surface_potential_analysis/util/interpolation.py:interpolate_points_rfftn", "surface_potential_analysis/util/interpolation.py:pad_ft_points_real_axis"]}
{"id": "C21", "title": "Reciprocal vectors are dual to the direct lattice vectors", "statement": "The dot product of direct vector i and reciprocal vector j is 2*pi if i = j and 0 otherwise, the reciprocal of the reciprocal lattice is the direct lattice, and the two cell volumes multiply to (2 pi)^d.", "quantifier": "every invertible lattice in every dimension", "why_tests_cant": "Continuum of lattices.", "anchors": ["surface_potential_analysis/basis/util.py:BasisUtil.dk_stacked", "surface_potential_analysis/basis/util.py:BasisUtil.volume", "surface_potential_analysis/basis/util.py:BasisUtil.reciprocal_volume"]}
{"id": "C22", "title": "Brillouin-zone decrement moves points by reciprocal lattice vectors towards the origin", "statement": "Folding a momentum index into the first Brillouin zone only subtracts reciprocal lattice vectors, never increases the distance to the origin, and leaves points of the zone alone.", "quantifier": "every lattice, every momentum index, any dimension the function accepts", "why_tests_cant": "Continuum of lattices; fails for non-3D bases.", "anchors": ["surface_potential_analysis/stacked_basis/brillouin_zone.py:decrement_brillouin_zone_3d"]}
{"id": "C23", "title": "Bragg plane distance decides closeness to the origin", "statement": "The signed distance of a point k to the Bragg plane of G is |k|-projection minus |G|/2: it is <= 0 exactly when k is at least as close to the origin as to G.", "quantifier": "every k and every nonzero G, any dimension", "why_tests_cant": "Continuum.", "anchors": ["surface_potential_analysis/stacked_basis/brillouin_zone.py:get_bragg_plane_distance"]}
{"id": "C24", "title": "Average position index of two points is equivariant", "statement": "The periodic mean index of each pair of grid points returned by get_twice_average_nx is congruent to the sum of the indices modulo the axis length, and translating both points translates it accordingly.", "quantifier": "every grid shape and pair of points", "why_tests_cant": "All pairs at all sizes.", "anchors": ["surface_potential_analysis/basis/util.py:get_twice_average_nx", "surface_potential_analysis/basis/util.py:_get_average_angles"]}
{"id": "C25", "title": "Inner products are conjugate symmetric, linear and basis independent", "statement": "calculate_inner_product(a, b) is linear in a, conjugate-linear in the state b was built from, conjugate symmetric, positive, and as_dual_vector/as_vector are mutually inverse; the value does not depend on the lossless basis used.", "quantifier": "all states in all bases", "why_tests_cant": "Universally quantified.", "anchors": ["surface_potential_analysis/state_vector/state_vector.py:calculate_inner_product", "surface_potential_analysis/state_vector/state_vector.py:as_dual_vector"]}
{"id": "C26", "title": "An operator rebuilt from its eigenstates is the operator", "statement": "calculate_eigenvectors_hermitian followed by rebuilding the operator from eigenvalues and states gives the original Hermitian operator; every listed state is an eigenstate with the listed real eigenvalue and the states are orthonormal.", "quantifier": "every Hermitian operator of any size (given the eigensolver contract)", "why_tests_cant": "All matrices.", "anchors": ["surface_potential_analysis/state_vector/eigenstate_calculation.py:calculate_eigenvectors_hermitian", "surface_potential_analysis/state_vector/eigenstate_calculation.py:operator_from_eigenstates"]}
{"id": "C27", "title": "State lists hold their states in order", "statement": "Building a list from states and reading state i back gives state i; stacking and unstacking are inverse; length is preserved.", "quantifier": "every list length and state size", "why_tests_cant": "Unbounded lists.", "anchors": ["surface_potential_analysis/state_vector/state_vector_list.py:as_state_vector_list", "surface_potential_analysis/state_vector/state_vector_list.py:state_vector_list_into_iter", "surface_potential_analysis/state_vector/state_vector_list.py:get_state_vector"]}
{"id": "C28", "title": "Projection onto the plane of chosen axes is orthogonal and coordinate independent", "statement": "project_x_points_along_axes and project_k_points_along_axes return coordinates of the orthogonal projection on the span of the chosen lattice vectors in an orthonormal frame: distances between points of that span are preserved and components orthogonal to it vanish.", "quantifier": "every lattice with linearly independent chosen vectors, every point, every list of axes", "why_tests_cant": "Continuum.", "anchors": ["surface_potential_analysis/stacked_basis/util.py:project_x_points_along_axes", "surface_potential_analysis/stacked_basis/util.py:project_k_points_along_axes"]}
{"id": "C29", "title": "Operator algebra is matrix algebra", "statement": "matmul_operator, add_operator, subtract_operator, commutators and apply_operator_to_state satisfy the ring laws, and operator application composes: (AB)psi = A(B psi).", "quantifier": "all operators and states of any size; result data have the flattened shape of the basis", "why_tests_cant": "Universally quantified; the returned data keep a 2-D shape in some functions.", "anchors": ["surface_potential_analysis/operator/operations.py:matmul_operator_list", "surface_potential_analysis/operator/operations.py:get_commutator", "surface_potential_analysis/operator/operations.py:apply_operator_to_states"]}
{"id": "C30", "title": "Averaging eigenvalues over no explicitly given axes averages over every axis", "statement": "average_eigenvalues without axes averages over all axes of the stacked basis, keeping the total mean.", "quantifier": "every stacked shape", "why_tests_cant": "Default axes use the outer dimension of the data; only true for one axis.", "anchors": ["surface_potential_analysis/operator/operator.py:average_eigenvalues", "surface_potential_analysis/operator/operator.py:average_eigenvalues_list"]}
{"id": "C31", "title": "Diagonal operators and their full form agree", "statement": "as_operator of a diagonal operator has the diagonal on the diagonal and zero elsewhere, as_diagonal_operator recovers it, and applying either to a state multiplies each component by its eigenvalue.", "quantifier": "all sizes and diagonals", "why_tests_cant": "Universally quantified.", "anchors": ["surface_potential_analysis/operator/operator.py:as_operator", "surface_potential_analysis/operator/operator.py:as_diagonal_operator"]}
{"id": "C32", "title": "Unitary evolution solves the Schroedinger equation", "statement": "solve_schrodinger_equation_decomposition and solve_schrodinger_equation_diagonal return at each time the solution of i hbar dpsi/dt = H psi with the given initial state, for every Hermitian H.", "quantifier": "every Hermitian H, initial state and time", "why_tests_cant": "Infinitely many times and systems.", "anchors": ["surface_potential_analysis/dynamics/schrodinger/solve.py:solve_schrodinger_equation_decomposition", "surface_potential_analysis/dynamics/schrodinger/solve.py:solve_schrodinger_equation_diagonal"]}
{"id": "C33", "title": "Unitary evolution conserves norm, inner products and energy and composes", "statement": "The solution at every time has the norm and the energy expectation of the initial state, solving for t then s equals solving for t + s, and a diagonal Hamiltonian only multiplies by phases.", "quantifier": "every Hermitian H, initial state, pairs of times", "why_tests_cant": "Infinitely many times and systems.", "anchors": ["surface_potential_analysis/dynamics/schrodinger/solve.py:solve_schrodinger_equation_decomposition", "surface_potential_analysis/dynamics/schrodinger/solve.py:solve_schrodinger_equation_diagonal"]}
{"id": "C34", "title": "The tunnelling rate matrix is a conservative generator and inputs are not modified", "statement": "get_tunnelling_m_matrix of nonnegative rates has nonnegative off-diagonal entries, every column sums to zero, and entry (i,j) is the rate from j to i; the caller's rate matrix is unchanged.", "quantifier": "every rate matrix of any size", "why_tests_cant": "All sizes; mutation of the caller's array is visible only as history.", "anchors": ["surface_potential_analysis/dynamics/incoherent_propagation/tunnelling_matrix.py:get_tunnelling_m_matrix"]}
{"id": "C35", "title": "The slowest mode of a rate matrix has eigenvalue exactly zero after the shift", "statement": "For rates that are nonnegative, every eigenvalue of the rate matrix has nonpositive real part and the one with largest real part is zero, so subtracting the largest eigenvalue changes nothing and no mode grows.", "quantifier": "every nonnegative rate matrix of any size", "why_tests_cant": "Spectral statement over all matrices.", "anchors": ["surface_potential_analysis/dynamics/incoherent_propagation/eigenstates.py:calculate_tunnelling_eigenstates"]}
{"id": "C36", "title": "Incoherent simulation solves the rate equation and conserves probability", "statement": "calculate_tunnelling_simulation_state starts from the given distribution, satisfies dp/dt = M p, keeps the total probability and keeps probabilities nonnegative.", "quantifier": "every diagonalisable rate matrix, initial distribution and all times t >= 0", "why_tests_cant": "Continuum of times.", "anchors": ["surface_potential_analysis/dynamics/incoherent_propagation/eigenstates.py:calculate_tunnelling_simulation_state", "surface_potential_analysis/dynamics/incoherent_propagation/eigenstates.py:get_operator_state_vector_decomposition"]}
{"id": "C37", "title": "The equilibrium state is stationary and normalised", "statement": "calculate_equilibrium_state returns a distribution that the rate matrix annihilates and whose entries sum to one, and the simulation converges to it when zero is a simple eigenvalue.", "quantifier": "every rate matrix with simple zero eigenvalue, every initial distribution", "why_tests_cant": "Limit statement.", "anchors": ["surface_potential_analysis/dynamics/incoherent_propagation/eigenstates.py:calculate_equilibrium_state"]}
{"id": "C38", "title": "Hop operators are unitary translations", "statement": "build_hop_operator(i, shape) moves a state by the hop vector of index i with periodic wrapping, is unitary, hop 0 is the identity, and opposite hops are inverse.", "quantifier": "every shape and hop index, every dimension", "why_tests_cant": "All shapes.", "anchors": ["surface_potential_analysis/dynamics/util.py:get_hop_shift", "surface_potential_analysis/dynamics/util.py:build_hop_operator"]}
{"id": "C39", "title": "Banded representation of an operator loses only what is below the threshold", "statement": "The diagonals passed to the banded solver rebuild the operator exactly at threshold zero and otherwise with an error bounded by the dropped diagonals.", "quantifier": "every operator and threshold", "why_tests_cant": "All sizes.", "anchors": ["surface_potential_analysis/dynamics/stochastic_schrodinger/solve.py:_get_operator_diagonals", "surface_potential_analysis/dynamics/stochastic_schrodinger/solve.py:_get_banded_operator"]}
{"id": "C40", "title": "Rescaling the stochastic problem leaves it invariant and the time step matches the reported times", "statement": "The rescaled Hamiltonian, noise operators and time step handed to the external solver describe the same Lindblad/SSE increments as the physical ones, and consecutive samples are separated by the spacing of the reported times.", "quantifier": "all Hamiltonians, collapse operators and time bases", "why_tests_cant": "One solver uses the sampled rather than the fundamental time step: wrong for every step > 1.", "anchors": ["surface_potential_analysis/dynamics/stochastic_schrodinger/solve.py:solve_stochastic_schrodinger_equation_rust", "surface_potential_analysis/dynamics/stochastic_schrodinger/solve.py:solve_stochastic_schrodinger_equation_rust_banded", "surface_potential_analysis/basis/time_basis_like.py:EvenlySpacedTimeBasis"]}
{"id": "C41", "title": "Randomly localised states are normalised", "statement": "The localised state chosen between solver steps is a unit vector when the input is, and the first recorded state is the initial state.", "quantifier": "every pair of states and every random choice", "why_tests_cant": "Every random history; false of the code.", "anchors": ["surface_potential_analysis/dynamics/stochastic_schrodinger/solve.py:_select_random_localized_state", "surface_potential_analysis/dynamics/stochastic_schrodinger/solve.py:solve_stochastic_schrodinger_equation_localized"]}
{"id": "C42", "title": "The Fey model of the intermediate scattering function starts at one and never exceeds it", "statement": "calculate_isf_fey_model_110 and _112bar are the total Fourier component of the occupations of the two-site jump model started in equilibrium: 1 at time zero, real, in [0,1] and non-increasing in time for positive rates, at every momentum transfer at which the amplitude factor of the formula does not vanish.", "quantifier": "all rates, lattice constants, momentum transfers and times t >= 0", "why_tests_cant": "Real-analytic identity over a continuum.", "anchors": ["surface_potential_analysis/dynamics/isf.py:calculate_isf_fey_model_110", "surface_potential_analysis/dynamics/isf.py:calculate_isf_fey_model_112bar"]}
{"id": "C43", "title": "Fermi occupation obeys detailed balance", "statement": "The Fermi occupation lies strictly between 0 and 1, is decreasing, satisfies f(E,mu)+f(2mu-E)=1 and the detailed balance ratio exp of the energy difference over kT.", "quantifier": "all energies and positive temperatures", "why_tests_cant": "Continuum.", "anchors": ["surface_potential_analysis/dynamics/hermitian_gamma_integral.py:_get_fermi_occupation"]}
{"id": "C44", "title": "The approximate ISF starts at one and is the pair sum over occupations", "statement": "The approximate ISF computed from localised positions is 1 at time zero (for normalised occupations) and bounded by 1 in modulus for all times.", "quantifier": "all occupations, positions and momentum transfers", "why_tests_cant": "Continuum.", "anchors": ["surface_potential_analysis/dynamics/isf.py:calculate_isf_approximate_locations", "surface_potential_analysis/dynamics/isf.py:_calculate_approximate_locations"]}
{"id": "C45", "title": "Unfurling a wavepacket puts every Bloch component at its own momentum", "statement": "unfurl_wavepacket places the component with band momentum j and Bloch index a at the index of momentum ns*nk(j)+nk(a) of the large cell; distinct components go to distinct places and every place is filled once.", "quantifier": "every number of unit cells and size per axis, every dimension", "why_tests_cant": "All shapes and parities.", "anchors": ["surface_potential_analysis/wavepacket/eigenstate_conversion.py:unfurl_wavepacket", "surface_potential_analysis/wavepacket/eigenstate_conversion.py:_unfurl_momentum_basis_wavepacket"]}
{"id": "C46", "title": "Unfurling preserves norm and inner products", "statement": "The inner product of two unfurled wavepackets is the mean over the samples (sum divided by their number) of the inner products of their Bloch components; normalised Bloch states unfurl to a normalised state.", "quantifier": "all wavepackets", "why_tests_cant": "Universally quantified.", "anchors": ["surface_potential_analysis/wavepacket/eigenstate_conversion.py:unfurl_wavepacket"]}
{"id": "C47", "title": "Sampled bases of a wavepacket tile the momenta of the large cell", "statement": "The evenly spaced bases used for the Bloch states are, over all Bloch indices, disjoint and cover all momenta of the big cell exactly once.", "quantifier": "all list sizes and state sizes", "why_tests_cant": "All shapes.", "anchors": ["surface_potential_analysis/wavepacket/get_eigenstate.py:_get_sampled_basis"]}
{"id": "C48", "title": "The Bloch basis is orthonormal and block structured", "statement": "Bloch states of different Bloch index are orthogonal, so the collected basis is orthonormal when each fraction's eigenstates are; conversion to and from the fundamental basis is adjoint.", "quantifier": "all wavepacket lists", "why_tests_cant": "All shapes.", "anchors": ["surface_potential_analysis/wavepacket/get_eigenstate.py:BlochBasis"]}
{"id": "C49", "title": "Changing the shape of the wavepacket keeps the momentum content", "statement": "convert_wavepacket_to_shape keeps every coefficient whose momentum exists in the new shape.", "quantifier": "all shapes and wavepackets", "why_tests_cant": "All shapes.", "anchors": ["surface_potential_analysis/wavepacket/conversion.py:convert_wavepacket_to_shape"]}
{"id": "C50", "title": "Localised wavepackets stay orthonormal", "statement": "The projection localisation operator is unitary for each Bloch index, so localised wavepackets are orthonormal if the originals are, and the localised states overlap the projection states positively.", "quantifier": "all projections of full rank, all Bloch indices", "why_tests_cant": "All matrices (SVD contract assumed).", "anchors": ["surface_potential_analysis/wavepacket/localization_operator.py:get_localized_wavepackets"]}
{"id": "C51", "title": "The localised Hamiltonian has the same spectrum as the bands", "statement": "The Hamiltonian in the localised basis is Hermitian and unitarily equivalent to the diagonal band energies at each Bloch index.", "quantifier": "all unitary localisation operators and band energies", "why_tests_cant": "All matrices.", "anchors": ["surface_potential_analysis/wavepacket/localization_operator.py:get_localized_hamiltonian_from_eigenvalues"]}
{"id": "C52", "title": "Wannier states in different unit cells are orthonormal translates", "statement": "Wannier states built from orthonormal Bloch states with cell phases are orthonormal across cells, and rebuilding Bloch states from them is the inverse.", "quantifier": "all numbers of cells", "why_tests_cant": "All sizes.", "anchors": ["surface_potential_analysis/wavepacket/get_eigenstate.py:get_wannier_states"]}
{"id": "C53", "title": "Tight-binding localisation only changes phases", "statement": "localize_tightly_bound_wavepacket_idx multiplies each Bloch state by a unit phase so that all components are real positive at the chosen point, and preserves norms.", "quantifier": "all wavepackets, points and angles", "why_tests_cant": "Universally quantified; two sibling functions fail on shapes.", "anchors": ["surface_potential_analysis/wavepacket/localization/_tight_binding.py:localize_tightly_bound_wavepacket_idx"]}
{"id": "C54", "title": "All eigenstates are listed once with their eigenvalue", "statement": "get_all_eigenstates returns one eigenstate per Bloch index, in order, with its own vector and energy.", "quantifier": "all wavepackets", "why_tests_cant": "All sizes; the code iterates the flattened data instead.", "anchors": ["surface_potential_analysis/wavepacket/get_eigenstate.py:get_all_eigenstates"]}
{"id": "C55", "title": "Kernel representations convert without loss", "statement": "Converting a diagonal kernel to a full kernel and back, or an isotropic kernel to a diagonal kernel and back, is the identity on the smaller class.", "quantifier": "all sizes and kernels", "why_tests_cant": "The isotropic read-back takes the wrong row: only true for symmetric kernels.", "anchors": ["surface_potential_analysis/kernel/kernel.py:as_full_kernel_from_diagonal", "surface_potential_analysis/kernel/kernel.py:as_diagonal_kernel_from_isotropic", "surface_potential_analysis/kernel/kernel.py:as_diagonal_kernel_from_isotropic_stacked", "surface_potential_analysis/kernel/kernel.py:as_axis_kernel_from_isotropic"]}
{"id": "C56", "title": "Noise operators from eigen-decomposition rebuild the kernel", "statement": "The diagonal kernel computed from the eigen noise operators of a Hermitian diagonal kernel is that kernel.", "quantifier": "all Hermitian kernels (eigensolver contract)", "why_tests_cant": "All matrices.", "anchors": ["surface_potential_analysis/kernel/solve/_eigenvalue.py:get_periodic_noise_operators_eigenvalue", "surface_potential_analysis/kernel/solve/_eigenvalue.py:get_periodic_noise_operators_diagonal_eigenvalue", "surface_potential_analysis/kernel/kernel.py:get_full_kernel_from_operators"]}
{"id": "C57", "title": "FFT noise operators rebuild an isotropic kernel", "statement": "The kernel computed from FFT noise operators is the isotropic kernel beta(x - x') on the periodic grid, the operators are orthonormal plane waves and the eigenvalues are real for a symmetric kernel.", "quantifier": "all sizes and isotropic kernels", "why_tests_cant": "All sizes.", "anchors": ["surface_potential_analysis/kernel/solve/_fft.py:get_periodic_noise_operators_isotropic_fft", "surface_potential_analysis/kernel/solve/_fft.py:get_periodic_noise_operators_isotropic_stacked_fft"]}
{"id": "C58", "title": "Cosine/sine and Taylor noise operators rebuild a periodic even kernel", "statement": "Operators cos(kx), sin(kx) with given coefficients produce the kernel sum_k c_k cos(k(x-x')), and the Taylor solver's coefficients match the requested kernel to the requested order.", "quantifier": "all coefficient lists and points", "why_tests_cant": "All orders.", "anchors": ["surface_potential_analysis/kernel/solve/_taylor.py:get_periodic_noise_operators_explicit_taylor_expansion", "surface_potential_analysis/kernel/solve/_taylor.py:get_periodic_noise_operators_real_isotropic_taylor_expansion"]}
{"id": "C59", "title": "Real isotropic FFT noise operators are as many as their eigenvalues and rebuild the kernel", "statement": "The real isotropic solver returns equally many operators and eigenvalues and their kernel is the given one.", "quantifier": "all grid sizes", "why_tests_cant": "Count depends on parity; false for the code.", "anchors": ["surface_potential_analysis/kernel/solve/_fft.py:get_periodic_noise_operators_real_isotropic_fft"]}
{"id": "C60", "title": "Separable axis kernels combine to the product-space kernel", "statement": "Noise operators lifted from each axis to the stacked basis rebuild the product of the axis kernels on the product grid.", "quantifier": "all axis kernels and sizes", "why_tests_cant": "All dimensions.", "anchors": ["surface_potential_analysis/kernel/kernel.py:get_diagonal_noise_operators_from_axis", "surface_potential_analysis/kernel/kernel.py:as_isotropic_kernel_from_axis", "surface_potential_analysis/kernel/build.py:build_axis_kernel_from_function_stacked"]}
{"id": "C61", "title": "Kernels from noise operators are positive semidefinite and Hermitian", "statement": "A kernel built from operators with nonnegative eigenvalues is Hermitian positive semidefinite.", "quantifier": "all operator lists", "why_tests_cant": "All sizes.", "anchors": ["surface_potential_analysis/kernel/kernel.py:get_diagonal_kernel_from_diagonal_operators", "surface_potential_analysis/kernel/kernel.py:get_full_kernel_from_operators"]}
{"id": "C62", "title": "Truncating noise operators keeps the largest and bounds the error", "statement": "truncate_noise_operator_list keeps the n operators of largest eigenvalue (in modulus); the kernel error is the contribution of the dropped ones.", "quantifier": "all lists and n", "why_tests_cant": "Sorts signed values: for mixed signs the kept set is not the largest modulus.", "anchors": ["surface_potential_analysis/kernel/build.py:truncate_diagonal_noise_operator_list", "surface_potential_analysis/kernel/build.py:truncate_noise_operator_list", "surface_potential_analysis/kernel/build.py:truncate_noise_kernel", "surface_potential_analysis/kernel/build.py:truncate_diagonal_noise_kernel"]}
{"id": "C63", "title": "Temperature correction is the first order detailed-balance correction", "statement": "The temperature-corrected operators are L - (1/4kT)[H, L] (or the documented factor), linear in L and leave operators commuting with H alone.", "quantifier": "all operators and Hamiltonians", "why_tests_cant": "Universally quantified.", "anchors": ["surface_potential_analysis/kernel/build.py:get_temperature_corrected_noise_operators"]}
{"id": "C64", "title": "Gaussian kernels are periodic-isotropic, symmetric and bounded by a^2", "statement": "The gaussian noise kernel depends only on the wrapped displacement, is symmetric, equals a^2 on the diagonal and lies in (0, a^2].", "quantifier": "all grids, amplitudes and widths, one and more dimensions", "why_tests_cant": "In two dimensions the code takes flat differences.", "anchors": ["surface_potential_analysis/kernel/gaussian.py:get_gaussian_isotropic_noise_kernel", "surface_potential_analysis/kernel/gaussian.py:get_gaussian_noise_kernel", "surface_potential_analysis/kernel/lorentzian.py:get_lorentzian_isotropic_noise_kernel"]}
{"id": "C65", "title": "Sampled noise splits the kernel as documented", "statement": "Noise built by summing operators with independent standard complex normal weights has exactly the requested covariance.", "quantifier": "all operator lists", "why_tests_cant": "Statement on expectations for all sizes.", "anchors": ["surface_potential_analysis/kernel/sample.py:sample_noise_from_diagonal_operators_split", "surface_potential_analysis/kernel/sample.py:sample_noise_from_diagonal_operators", "surface_potential_analysis/kernel/sample.py:sample_noise_from_diagonal_kernel"]}
{"id": "C66", "title": "Normalising a potential shifts its minimum to zero", "statement": "normalize_potential subtracts the minimum: the result is nonnegative, reaches zero, keeps differences and is idempotent.", "quantifier": "all potentials", "why_tests_cant": "All sizes.", "anchors": ["surface_potential_analysis/potential/potential.py:normalize_potential"]}
{"id": "C67", "title": "Truncating a potential caps it smoothly and can be undone", "statement": "truncate_potential is increasing in the energy, bounded by the cutoff, nearly the identity for small energies, and undo_truncate_potential inverts it.", "quantifier": "all energies, cutoffs, orders n", "why_tests_cant": "Continuum; the inverse only holds for n = 1.", "anchors": ["surface_potential_analysis/potential/potential.py:truncate_potential", "surface_potential_analysis/potential/potential.py:undo_truncate_potential"]}
{"id": "C68", "title": "The continuous potential interpolates the grid and its derivative is the derivative", "statement": "get_continuous_potential evaluated at grid points returns the grid values, and the derivative function is the derivative of it.", "quantifier": "all potentials and points", "why_tests_cant": "Continuum.", "anchors": ["surface_potential_analysis/potential/conversion.py:get_continuous_potential"]}
{"id": "C69", "title": "Kinetic energies are hbar^2 k^2 / 2m of the basis momentum and are nonnegative", "statement": "The diagonal kinetic operator has the energy of each momentum including the Bloch fraction, nonnegative, zero only at zero momentum.", "quantifier": "all bases, bloch fractions and masses", "why_tests_cant": "All sizes.", "anchors": ["surface_potential_analysis/hamiltonian_builder/momentum_basis.py:hamiltonian_from_mass"]}
{"id": "C70", "title": "The potential operator in momentum space is Hermitian, Toeplitz and equals the transformed diagonal", "statement": "hamiltonian_from_potential in the momentum basis is the basis conversion of the diagonal position operator, and is Hermitian for real potentials.", "quantifier": "all potentials and sizes", "why_tests_cant": "All sizes.", "anchors": ["surface_potential_analysis/hamiltonian_builder/momentum_basis.py:hamiltonian_from_potential"]}
{"id": "C71", "title": "The total surface Hamiltonian is Hermitian for every Bloch fraction", "statement": "total_surface_hamiltonian returns a Hermitian operator whose spectrum is bounded below by the potential minimum.", "quantifier": "all potentials, masses, fractions", "why_tests_cant": "All sizes.", "anchors": ["surface_potential_analysis/hamiltonian_builder/momentum_basis.py:total_surface_hamiltonian"]}
{"id": "C72", "title": "Momentum overlap does not alias under the size guard", "statement": "The product of basis functions with the potential is represented without aliasing when the resolution guard passes.", "quantifier": "all resolutions", "why_tests_cant": "Boundary case n = 2(res-1) aliases.", "anchors": ["surface_potential_analysis/hamiltonian_builder/sho_subtracted_basis.py:_SurfaceHamiltonianUtil"]}
{"id": "C73", "title": "Cache file names of overlaps never collide", "statement": "Different requests have different overlap file names.", "quantifier": "all band indices and offsets", "why_tests_cant": "Infinite set of names.", "anchors": ["surface_potential_analysis/overlap/overlap.py:get_overlap_cache_filename"]}
{"id": "C74", "title": "The sum of an overlap is the inner product of the wavepackets", "statement": "Summing the position-space overlap over all points gives the inner product of the two states.", "quantifier": "all states", "why_tests_cant": "Universally quantified.", "anchors": ["surface_potential_analysis/overlap/calculation.py:calculate_wavepacket_overlap", "surface_potential_analysis/overlap/calculation.py:calculate_state_vector_list_overlap"]}
{"id": "C75", "title": "The momentum interpolator is the Fourier transform of the overlap", "statement": "At reciprocal grid points the interpolated momentum overlap equals the discrete Fourier transform of the overlap data.", "quantifier": "all data", "why_tests_cant": "All sizes.", "anchors": ["surface_potential_analysis/overlap/interpolation.py:get_overlap_momentum_interpolator", "surface_potential_analysis/overlap/interpolation.py:get_overlap_momentum_interpolator_flat"]}
{"id": "C76", "title": "Probabilities are nonnegative, sum to the squared norm, and marginals keep the total", "statement": "from_state_vector gives |psi_i|^2 whose sum is the squared norm; summing over axes keeps the total; averaging equals the mean over the listed states.", "quantifier": "all states, axes and lists", "why_tests_cant": "All dimensions.", "anchors": ["surface_potential_analysis/probability_vector/probability_vector.py:get_probability", "surface_potential_analysis/probability_vector/probability_vector.py:sum_probabilities", "surface_potential_analysis/probability_vector/probability_vector.py:average_probabilities"]}
{"id": "C77", "title": "A cached function returns what the function returns for every history of calls and crashes", "statement": "For every sequence of calls, cache deletions and crashes at any point of a write, a call to a cached pure function returns the function value for its arguments or raises; it never returns a value of another call.", "quantifier": "all histories, crash points and argument sequences", "why_tests_cant": "Infinite histories; false when two argument tuples share a path; after a crash mid-write every later call raises.", "anchors": ["surface_potential_analysis/util/decorators.py:CachedFunction", "surface_potential_analysis/util/decorators.py:npy_cached", "surface_potential_analysis/util/decorators.py:cached"]}
{"id": "C78", "title": "Timing a function is transparent", "statement": "timed(f) returns what f returns, raises what f raises, and reports exactly one duration per call, including for calls that raise.", "quantifier": "all functions, arguments and nested calls", "why_tests_cant": "All functions.", "anchors": ["surface_potential_analysis/util/decorators.py:timed"]}
{"id": "C79", "title": "The squared scale is an order-preserving bijection on its range", "statement": "The squared scale transform and its inverse are mutually inverse on the nonnegative axis range and monotone.", "quantifier": "all values", "why_tests_cant": "Continuum.", "anchors": ["surface_potential_analysis/util/squared_scale.py:SquaredScale"]}
{"id": "C80", "title": "Measured data agree with the complex data", "statement": "get_measured_data real/imag/abs recombine to the data, and the angle measure differs from the principal angle by multiples of 2 pi with successive steps at most pi.", "quantifier": "all arrays", "why_tests_cant": "All lengths.", "anchors": ["surface_potential_analysis/util/util.py:get_measured_data"]}
{"id": "C81", "title": "Interpolating without naming axes gives the requested shape", "statement": "interpolate_points_fftn(points, s) without axes interpolates the last len(s) axes to the lengths s: the result has the shape of points with its last len(s) entries replaced by s, as the docstring (and numpy's fftn) says.", "quantifier": "all shapes and target lengths", "why_tests_cant": "Square targets, the common test case, hide an order reversal; false for every s which is not a palindrome.", "anchors": ["surface_potential_analysis/util/interpolation.py:interpolate_points_fftn"]}
{"id": "C82", "title": "Interpolating a state in momentum gives each listed axis its requested number of points", "statement": "interpolate_state_vector_momentum(state, shape, axes) returns the state in a truncated momentum basis in which axis axes[i] has shape[i] fundamental points, and the values scaled so that the state keeps its value at the common points.", "quantifier": "all stacked bases, shapes and lists of axes", "why_tests_cant": "Equal requested numbers, the common test case, hide that every listed axis gets the second entry of shape (operator precedence of a walrus), and that one listed axis raises.", "anchors": ["surface_potential_analysis/state_vector/conversion.py:interpolate_state_vector_momentum"]}
{"id": "C83", "title": "A rate matrix built from jump rates has exactly those rates", "statement": "get_a_matrix_from_jump_matrix(matrix, shape) has, on a supercell of at least 3 by 3 cells, the jump rate of each hop as the rate from each site and band to the site one hop away, and no other rates; by default all bands are used.", "quantifier": "every jump matrix, number of bands and supercell", "why_tests_cant": "All supercells and band numbers; a one-band test hides that the default number of bands raises.", "anchors": ["surface_potential_analysis/dynamics/incoherent_propagation/tunnelling_matrix.py:get_a_matrix_from_jump_matrix", "surface_potential_analysis/dynamics/util.py:build_hop_operator"]}
{"id": "C84", "title": "Sample times of a time axis are its fundamental times at the sampled steps", "statement": "The times of an evenly spaced time axis are evenly spaced by dt from the offset, lie within the stated duration, and are the fundamental times at the sampled steps.", "quantifier": "all axes", "why_tests_cant": "False of the code: the fundamental times include the end point, for every axis with at least two steps.", "anchors": ["surface_potential_analysis/basis/time_basis_like.py:EvenlySpacedTimeBasis"]}
{"id": "C85", "title": "Collapse operators of a rate matrix reproduce the rates", "statement": "The collapse operators built from a rate matrix transfer population between every pair of states at the given rate, and the given matrix is unchanged.", "quantifier": "all rate matrices", "why_tests_cant": "False of the code: the rates are squared and reversed, and the diagonal of the argument is overwritten.", "anchors": ["surface_potential_analysis/dynamics/stochastic_schrodinger/solve.py:get_collapse_operators_from_a_matrix"]}
{"id": "C86", "title": "The screened Coulomb potential is continuous across its two branches", "statement": "The potential of the electron-hydrogen interaction is even, attractive and bounded; the small-q expression used near zero agrees with the full expression to fourth order in q; the gamma integral is linear in the overlap, commutes with complex conjugation, and is real and nonnegative for nonnegative overlaps.", "quantifier": "all momentum transfers, overlaps, temperatures and Fermi momenta", "why_tests_cant": "Continuum; a removable singularity which no sampled test hits.", "anchors": ["surface_potential_analysis/dynamics/hermitian_gamma_integral.py:_get_coulomb_potential", "surface_potential_analysis/dynamics/hermitian_gamma_integral.py:calculate_real_gamma_integral"]}
{"id": "C87", "title": "The rate decomposition pairs every eigenvalue with its coefficient", "statement": "get_rate_decomposition returns the eigenvalues of the rate matrix and the coefficients of the initial distribution in its eigenvectors, in the same order.", "quantifier": "all rate matrices and initial distributions", "why_tests_cant": "False of the code: the field eigenvalues holds the components of the eigenvectors.", "anchors": ["surface_potential_analysis/dynamics/incoherent_propagation/isf.py:get_rate_decomposition"]}
{"id": "C88", "title": "The localised Hamiltonian is the matrix of the Hamiltonian between the localised wavepackets", "statement": "get_localized_hamiltonian_from_eigenvalues(h, operator) at sample a has as entry (i, j) the matrix element of the Hamiltonian between the localised wavepackets i and j which get_localized_wavepackets returns for the same operator.", "quantifier": "all localisation operators, energies and samples", "why_tests_cant": "Tests with real operators, or of the spectrum only, cannot see that the matrix is transposed for complex operators.", "anchors": ["surface_potential_analysis/wavepacket/localization_operator.py:get_localized_hamiltonian_from_eigenvalues", "surface_potential_analysis/wavepacket/localization_operator.py:get_localized_wavepackets"]}
{"id": "C89", "title": "The identity localisation operator leaves wavepackets unchanged", "statement": "get_localized_wavepackets(w, get_identity_operator(w.basis[0])) has the same number of wavepackets with the same coefficients as w.", "quantifier": "all numbers of bands and samples", "why_tests_cant": "Only false when the number of bands differs from the number of samples; a test with equal numbers passes.", "anchors": ["surface_potential_analysis/wavepacket/localization_operator.py:get_identity_operator"]}
{"id": "C90", "title": "The sample fractions of a wavepacket are the centred labels over the numbers of samples", "statement": "get_wavepacket_sample_fractions(list_basis) gives every sample its momentum as a fraction of the Brillouin zone: the centred label divided by the number of samples, on every axis; the first sample has momentum zero.", "quantifier": "all list bases", "why_tests_cant": "False for list bases which are not transformed, as returned by convert_wavepacket_to_shape: the fractions are converted as if they were the components of a vector.", "anchors": ["surface_potential_analysis/wavepacket/wavepacket.py:get_wavepacket_sample_fractions"]}
{"id": "C91", "title": "The full Wannier Hamiltonian is the matrix of the Hamiltonian in the Wannier basis", "statement": "Entry (n, m) of get_full_wannier_hamiltonian is the matrix element of the Hamiltonian between Wannier states n and m of get_full_wannier_basis.", "quantifier": "all localisation operators and energies", "why_tests_cant": "The spectrum is right, so tests of eigenvalues pass; the matrix is transposed and its indices are ordered (translation, wannier) while the basis is (wannier, translation).", "anchors": ["surface_potential_analysis/wavepacket/get_eigenstate.py:get_full_wannier_hamiltonian", "surface_potential_analysis/wavepacket/get_eigenstate.py:get_wannier_basis"]}
{"id": "C92", "title": "The generated off diagonal energies are the matrix elements of the potential", "statement": "calculate_off_diagonal_energies2(ft_potential, resolution, states) returns the matrix elements of the subtracted potential between the products of plane waves parallel to the surface and the given states normal to it; the cache inside the generator does not change any entry.", "quantifier": "all grids, truncations and states normal to the surface", "why_tests_cant": "False for complex states: the complex conjugate is taken of the wrong factor; tests with real states pass. The cache is keyed on differences modulo the grid, and a collision shows only for particular truncations.", "anchors": ["lib/hamiltonian_generator/src/lib.rs:calculate_off_diagonal_energies2", "lib/hamiltonian_generator/src/lib.rs:calculate_off_diagonal_energies", "surface_potential_analysis/hamiltonian_builder/explicit_z_basis.py:_SurfaceHamiltonianUtil"]}
{"id": "C93", "title": "The harmonic oscillator states solve the Schroedinger equation", "statement": "The oscillator states of the generator and of calculate_sho_wavefunction are the normalised eigenfunctions of the harmonic oscillator hamiltonian: they satisfy the Schroedinger equation with energy hbar omega (n + 1/2).", "quantifier": "all quantum numbers, frequencies and masses", "why_tests_cant": "A differential equation on the real line for all n; integer overflow in the factorial makes it false from n = 21 on.", "anchors": ["lib/hamiltonian_generator/src/lib.rs:calculate_sho_wavefunction", "surface_potential_analysis/stacked_basis/sho_basis.py:calculate_sho_wavefunction"]}
{"id": "C94", "title": "The hamiltonian with explicit states normal to the surface is the hamiltonian on the grid in that basis", "statement": "total_surface_hamiltonian of the explicit z basis equals the momentum basis hamiltonian of the same potential converted to the same basis, whatever potential was used for the states normal to the surface.", "quantifier": "all lattices with a normal third vector, grids, truncations, potentials, masses and Bloch fractions", "why_tests_cant": "Two independent code paths; equality for all potentials and truncations up to the guard.", "anchors": ["surface_potential_analysis/hamiltonian_builder/explicit_z_basis.py:total_surface_hamiltonian", "surface_potential_analysis/hamiltonian_builder/momentum_basis.py:total_surface_hamiltonian"]}
{"id": "C95", "title": "The oscillator basis is centred on the configured origin", "statement": "calculate_x_distances(basis, x_origin) gives equally spaced distances along the axis, with the value zero at x_origin.", "quantifier": "all axes and origins", "why_tests_cant": "False of the code for every origin with a nonzero projection: the projection is added instead of subtracted. The tests pass the origin with the opposite sign.", "anchors": ["surface_potential_analysis/stacked_basis/sho_basis.py:calculate_x_distances"]}
{"id": "C96", "title": "Wavefunctions evaluated by the generator satisfy Bloch's theorem", "statement": "get_eigenstate_wavefunction at a point moved by a lattice vector is its value at the point times the Bloch phase; the reciprocal vectors are dual to the lattice vectors.", "quantifier": "all lattices, truncations, coefficient vectors, momenta, points and lattice translations", "why_tests_cant": "Real valued points and all lattice vectors.", "anchors": ["lib/hamiltonian_generator/src/lib.rs:get_eigenstate_wavefunction"]}
{"id": "C97", "title": "The selected one dimensional potential passes through the global minimum", "statement": "select_minimum_potential_3d returns the potential along a line normal to the surface which contains a global minimum of the potential, with the length of the third lattice vector.", "quantifier": "all shapes and real potentials", "why_tests_cant": "Index arithmetic for all shapes.", "anchors": ["surface_potential_analysis/stacked_basis/potential_basis.py:select_minimum_potential_3d"]}
{"id": "C98", "title": "Functions cached with npy_cached return the value of the function", "statement": "A function decorated with npy_cached returns for all arguments what the function returns, and the function runs once for each path.", "quantifier": "all functions, paths and sequences of calls", "why_tests_cant": "Histories of calls; false for paths without the extension .npy and for results which are not numeric arrays.", "anchors": ["surface_potential_analysis/util/decorators.py:npy_cached"]}
{"id": "C99", "title": "The angle averaged overlap is the mean over the directions", "statement": "get_angle_averaged_diagonal_overlap_function(interpolator, abs_q) returns for every length the mean over all directions of the squared modulus of the interpolated overlap, exactly when the overlap has fewer harmonics than there are samples.", "quantifier": "all interpolators, lengths and numbers of samples", "why_tests_cant": "An integral over all directions; false of the code, which counts the direction zero twice, by an amount which vanishes as one over the number of samples.", "anchors": ["surface_potential_analysis/overlap/interpolation.py:get_angle_averaged_diagonal_overlap_function"]}
{"id": "C100", "title": "Shifted overlaps use the periodic translation of the states", "statement": "calculate_state_vector_list_overlap(states, shift=...) gives the products of the conjugated states with the states translated periodically by the stacked shift.", "quantifier": "all lists of states, grids and shifts", "why_tests_cant": "False for shifts along an axis which is not the first, because the shift is applied to the flat index; equality for all shifts along the first axis cannot be tested.", "anchors": ["surface_potential_analysis/overlap/calculation.py:calculate_state_vector_list_overlap"]}
{"id": "C101", "title": "Average displacements are mean squared displacements", "statement": "The average displacements of a list of trajectories have, for every trajectory and lag, the mean of the squared displacements over all pairs of times separated by the lag; the times of the result are the lags.", "quantifier": "all trajectories, time bases and lags", "why_tests_cant": "Computed from correlations and cumulative sums; equality for all lengths and lags including the boundary lags.", "anchors": ["surface_potential_analysis/state_vector/plot.py:get_average_displacements"]}
{"id": "C102", "title": "The average scattering function of trajectories is the mean of the phases", "statement": "The average intermediate scattering function of trajectories x(t) at lag tau is the mean over all pairs of times of exp(i k (x(t + tau) - x(t))).", "quantifier": "all trajectories, momentum transfers and lags", "why_tests_cant": "False of the code: the result is the complex conjugate; the modulus and the real part hide it.", "anchors": ["surface_potential_analysis/state_vector/plot.py:get_average_isf"]}
{"id": "C103", "title": "Drifts are mean displacements over momentum and vanish at rest", "statement": "The drift functions of trajectories with positions x and momenta k return the mean displacement at a lag divided by the momentum; a particle at rest has no drift.", "quantifier": "all trajectories and momenta", "why_tests_cant": "False of the code in sign, normalisation and for particles at rest away from the origin.", "anchors": ["surface_potential_analysis/state_vector/plot.py:get_average_normalized_drift", "surface_potential_analysis/state_vector/plot.py:get_normalized_average_drift"]}
{"id": "C104", "title": "The periodic average position is the phase of the mean phase", "statement": "The average position of a state in a periodic cell lies in the cell and its phase is the phase of the mean of the phases of the points, weighted with the squared modulus of the state; a state at one point is at this point; translated states have translated positions; positions restored along a trajectory have the same phases, move by at most half a cell between samples, and recover every path which moves by less.", "quantifier": "all bases, states, trajectories and lattice vectors", "why_tests_cant": "Circular statistics for all states and unwrapping along unbounded trajectories; with several axes the code raises.", "anchors": ["surface_potential_analysis/state_vector/plot.py:get_periodic_x_operator", "surface_potential_analysis/state_vector/plot.py:_get_periodic_x", "surface_potential_analysis/state_vector/plot.py:_get_average_x_periodic", "surface_potential_analysis/state_vector/plot.py:_get_restored_x"]}
{"id": "C105", "title": "The width of a state satisfies the documented gaussian relation", "statement": "The width sigma of a state along an axis is non-negative and satisfies |<exp(i q x)>| = exp(- sigma^2 q^2 / 4) in the normalised state; it is zero exactly for states with one value of the coordinate; the argument is normalised in place.", "quantifier": "all bases, states and numbers of axes", "why_tests_cant": "Equality in the triangle inequality over all states.", "anchors": ["surface_potential_analysis/state_vector/plot.py:_get_x_spread"]}
{"id": "C106", "title": "Average position and momentum are expectation values", "statement": "The average position (momentum) is the sum over the points (centred momenta) of the position (momentum) times the weight of the state there; the coherent coordinates are the average position, momentum and width of the normalised state.", "quantifier": "all bases and states", "why_tests_cant": "All truncated and transformed bases; with several axes the code raises.", "anchors": ["surface_potential_analysis/state_vector/plot.py:_get_average_x", "surface_potential_analysis/state_vector/plot.py:_get_average_k", "surface_potential_analysis/state_vector/plot.py:get_coherent_coordinates"]}
{"id": "C107", "title": "Generated wavepackets are the requested eigenstates of the hamiltonian at each sample", "statement": "generate_wavepacket(generator, band_basis, list_basis) returns, for every band c and sample a, an eigenvector of generator(fraction of the sample) with its eigenvalue; the eigenvalue has index offset + step c among all eigenvalues in increasing order with multiplicity; the vectors of one sample are orthonormal. It raises if a band beyond the number of states is asked for.", "quantifier": "all hermitian generators, band bases and sample bases", "why_tests_cant": "All hermitian matrices with degenerate levels, all samples; false for sample bases which are not transformed (fractions are wrong, see C90).", "anchors": ["surface_potential_analysis/wavepacket/get_eigenstate.py:BlochBasis", "surface_potential_analysis/wavepacket/wavepacket.py:generate_wavepacket", "surface_potential_analysis/wavepacket/wavepacket.py:generate_uneven_wavepacket"]}
{"id": "C108", "title": "Lists of wavepackets hold their wavepackets", "statement": "get_wavepacket(list, i) is the i-th wavepacket (negative indices count from the end, others raise); get_wavepackets(list, slice) holds those with index in the slice in order, with their eigenvalues; turning a list into single wavepackets and back keeps every wavepacket.", "quantifier": "all lists, indices and slices", "why_tests_cant": "All index and slice values; false of the code for one-shot iterators, which lose the first wavepacket.", "anchors": ["surface_potential_analysis/wavepacket/wavepacket.py:get_wavepacket", "surface_potential_analysis/wavepacket/wavepacket.py:get_wavepackets", "surface_potential_analysis/wavepacket/wavepacket.py:get_wavepackets_with_eigenvalues", "surface_potential_analysis/wavepacket/wavepacket.py:as_wavepacket_list", "surface_potential_analysis/wavepacket/wavepacket.py:wavepacket_list_into_iter"]}
{"id": "C109", "title": "Band averaged eigenvalues are the mean over the samples", "statement": "get_average_eigenvalues of a list of wavepackets is a diagonal operator in the bands whose entries are the means of the eigenvalues over the samples.", "quantifier": "all lists", "why_tests_cant": "All numbers of bands and samples.", "anchors": ["surface_potential_analysis/wavepacket/wavepacket.py:get_average_eigenvalues"]}
{"id": "C110", "title": "Bloch's theorem holds for the hamiltonians", "statement": "The hamiltonian of a supercell with the repeated potential and no Bloch fraction has, between Bloch states, the matrix elements of the hamiltonian of the unit cell at the fractions of the sample, and none between different samples. So the Bloch states of the generated wavepackets are orthonormal eigenstates of the supercell hamiltonian with the returned energies.", "quantifier": "all lattices, numbers of axes, bases, potentials, numbers of samples and masses", "why_tests_cant": "An identity between two matrices of different sizes for all sizes; false of the code for even numbers of points, where the momenta at the edge of the grid are not folded.", "anchors": ["surface_potential_analysis/hamiltonian_builder/momentum_basis.py:total_surface_hamiltonian", "surface_potential_analysis/hamiltonian_builder/momentum_basis.py:hamiltonian_from_mass", "surface_potential_analysis/wavepacket/wavepacket.py:generate_wavepacket", "surface_potential_analysis/wavepacket/get_eigenstate.py:BlochBasis"]}
{"id": "C111", "title": "The hamiltonian in the Bloch basis is the supercell hamiltonian", "statement": "get_full_bloch_hamiltonian of all generated bands, applied to any function of the supercell through the Bloch basis, is the hamiltonian of the supercell with the repeated potential. get_bloch_basis keeps the states of the wavepackets, and vectors_at_bloch_k / basis_at_bloch_k give, for any integer sample index taken modulo the number of samples, the orthonormal states of that sample.", "quantifier": "all lattices, bases, potentials, numbers of samples and functions", "why_tests_cant": "An identity of operators for all sizes that needs completeness of the Bloch states.", "anchors": ["surface_potential_analysis/wavepacket/get_eigenstate.py:get_full_bloch_hamiltonian", "surface_potential_analysis/wavepacket/get_eigenstate.py:get_bloch_basis", "surface_potential_analysis/wavepacket/get_eigenstate.py:BlochBasis"]}
{"id": "C112", "title": "Tight binding states are one Bloch state cut to a unit cell", "statement": "get_tight_binding_state(wavepacket, idx, origin) is the Bloch state of the sample in the unit cell of points around the origin and zero outside of it. Without an origin the cell is around a point at which the modulus of the state is largest. get_tight_binding_states holds one such state for every band.", "quantifier": "all wavepackets, samples and origins", "why_tests_cant": "All cell sizes and origins with periodic wrapping; false of the code for fewer samples than points of the first axis (points of the cell are lost) and for three axes (IndexError).", "anchors": ["surface_potential_analysis/wavepacket/get_eigenstate.py:get_tight_binding_state", "surface_potential_analysis/wavepacket/get_eigenstate.py:get_tight_binding_states"]}
{"id": "C113", "title": "States at single points", "statement": "get_single_point_state_vector_excact(basis, idx) is one at entry idx (negative indices from the end) and zero elsewhere, and raises for an index outside. get_single_point_state_vectors(basis, n) gives n states, each of which is one at one point of the unfurled basis and zero elsewhere, at evenly spaced points.", "quantifier": "all bases, indices and numbers of bands", "why_tests_cant": "Holds of the code only for some combinations of sizes: in the others it raises, or some of the states are zero.", "anchors": ["surface_potential_analysis/state_vector/util.py:get_single_point_state_vector_excact", "surface_potential_analysis/state_vector/util.py:get_single_point_state_vectors"]}
{"id": "C114", "title": "The most localized free states are orthonormal and move with the band", "statement": "get_most_localized_free_state_vectors(basis, shape) gives orthonormal states. If the numbers of bands divide the numbers of points, the state of band m is the state of band 0 moved by the fractions m / shape of the unit cell, and its modulus is largest there.", "quantifier": "all sample shapes, state shapes and numbers of bands", "why_tests_cant": "Orthogonality of phases and translation for all sizes and dimensions.", "anchors": ["surface_potential_analysis/state_vector/util.py:get_most_localized_free_state_vectors"]}
{"id": "C115", "title": "Localized states from the probability of the momenta", "statement": "get_most_localized_state_vectors_from_probability(wavepackets, fractions) gives one normalized state for every fraction. The probability of each momentum is the mean over the first bands of the probability of the momentum in the Wannier function of the band, and the states of two fractions are translations of each other by the difference of the fractions.", "quantifier": "all wavepacket lists and fractions", "why_tests_cant": "A statement about all wavepackets and translations by all fractions.", "anchors": ["surface_potential_analysis/state_vector/util.py:get_most_localized_state_vectors_from_probability", "surface_potential_analysis/wavepacket/eigenstate_conversion.py:unfurl_wavepacket_list"]}
{"id": "C116", "title": "Interpolated uneven potentials keep the given values", "statement": "interpolate_uneven_potential(data, shape) gives the potential on an even grid: at every point of the new grid which is a point of the old one it has the old value, and the points of its basis are at the heights at which the values were computed. interpolate_points_along_axis_spline does the same along any axis.", "quantifier": "all uneven potentials, all positions of the last axis and all refinements", "why_tests_cant": "Depends on the layout of the arrays and on an off by one in the spacing which is small for fine grids.", "anchors": ["surface_potential_analysis/potential/potential.py:interpolate_uneven_potential", "surface_potential_analysis/util/interpolation.py:interpolate_points_along_axis_spline"]}
{"id": "C117", "title": "Localising a single band by projection", "statement": "localize_single_band_wavepacket_projection(wavepacket, projection) multiplies the state of each sample by a phase, such that its overlap with the projection is real and not negative. localize_single_point_projection(wavepacket, idx) does so for the state which is one at a point where the state of sample idx is largest: there all Bloch states are real and not negative, and of all choices of phases this gives the largest value of the unfurled state at that point.", "quantifier": "all wavepackets, bases, projections, samples, in any number of dimensions", "why_tests_cant": "A maximum over all choices of phases.", "anchors": ["surface_potential_analysis/wavepacket/localization/_projection.py:localize_single_band_wavepacket_projection", "surface_potential_analysis/wavepacket/localization/_projection.py:localize_single_point_projection", "surface_potential_analysis/wavepacket/localization/_projection.py:get_single_point_state_for_wavepacket"]}
{"id": "C118", "title": "Evenly spaced point states", "statement": "get_evenly_spaced_points(basis, shape) gives one state for every index of shape, which is one at the point at the fraction index / shape of the large cell, rounded down, and zero elsewhere. The states are orthonormal.", "quantifier": "all bases and shapes", "why_tests_cant": "Holds for all shapes with at most as many states as points in each direction, fails for others.", "anchors": ["surface_potential_analysis/wavepacket/localization/_projection.py:get_evenly_spaced_points"]}
{"id": "C119", "title": "Gaussian and exponential states for projections", "statement": "get_gaussian_states(wavepacket, origin) gives a normalized state, a gaussian around the origin which falls off over one unit cell in each direction; get_exponential_state(wavepacket, idx, origin) a state which decays from the maximum of the state of sample idx. Both work for any number of dimensions.", "quantifier": "all wavepackets and origins", "why_tests_cant": "The code fails or uses wrong widths depending on the number of dimensions.", "anchors": ["surface_potential_analysis/wavepacket/localization/_projection.py:get_gaussian_states", "surface_potential_analysis/wavepacket/localization/_projection.py:get_exponential_state"]}
{"id": "C120", "title": "Converting noise kernels to another basis", "statement": "convert_kernel_to_basis and convert_diagonal_kernel_to_basis convert a Hermitian kernel in each of its four indices, K'((i,j),(k,l)) = sum B_ii' conj(B_jj') B_kk' conj(B_ll') K((i',j'),(k',l')) where B converts vectors; the result does not depend on the eigenvectors used on the way. convert_isotropic_kernel_to_basis converts the noise in the same way.", "quantifier": "all Hermitian kernels, all pairs of bases with the same points", "why_tests_cant": "Holds for all kernels and all choices of eigenvectors.", "anchors": ["surface_potential_analysis/kernel/conversion.py:convert_kernel_to_basis", "surface_potential_analysis/kernel/conversion.py:convert_diagonal_kernel_to_basis", "surface_potential_analysis/kernel/conversion.py:convert_isotropic_kernel_to_basis", "surface_potential_analysis/kernel/conversion.py:convert_noise_operator_list_to_basis"]}
{"id": "C121", "title": "Overlaps written for wannier90", "statement": "The block of spa.mmn for the line k0 k1 o0 o1 o2 of the neighbour list holds, for all pairs of bands with the first index running fastest, the overlaps <u_m,k0 | exp(-iGx) u_n,k1> of the periodic parts of the states, G being the reciprocal lattice vector of the offsets (taken as zero on ignored axes). The file starts with the numbers of bands, samples and neighbours and has one block for each line of the list.", "quantifier": "all wavepackets on up to three axes (transformed where the offset is not zero), all neighbour lists", "why_tests_cant": "Holds for all states, sizes and offsets; sign and order of the indices only show up as wrong localised states after running another program.", "anchors": ["surface_potential_analysis/wavepacket/localization/_wannier90.py:_build_mmn_file", "surface_potential_analysis/wavepacket/localization/_wannier90.py:_build_mmn_file_block", "surface_potential_analysis/wavepacket/localization/_wannier90.py:_get_offset_bloch_state", "surface_potential_analysis/wavepacket/localization/_wannier90.py:_parse_nnk_points_file"]}
{"id": "C122", "title": "Unitary matrices read from wannier90", "statement": "From the file of unitary matrices U(n, m, k) as written by wannier90 (first index fastest), the localisation operator is made with which the localised wavepacket m is sum_n U(n, m, k) psi_n,k at every sample.", "quantifier": "all numbers of bands and samples, all matrices", "why_tests_cant": "The order of the numbers in the file matters for all sizes; real and symmetric examples cannot detect a transposition.", "anchors": ["surface_potential_analysis/wavepacket/localization/_wannier90.py:_get_localization_operator_from_u_mat_file", "surface_potential_analysis/wavepacket/localization/_wannier90.py:_parse_u_mat_file_block"]}
{"id": "C123", "title": "Projections and samples written for wannier90", "statement": "spa.amn holds for every sample, band and projection, in this order and counted from one, the overlap of the Bloch state on the whole repeated cell with the projection. The sample block of spa.win has the grid filled with ones and, in the order of the samples, their momenta as fractions of the Brillouin zone filled with zeros.", "quantifier": "all wavepackets, projections and sample grids with up to three axes", "why_tests_cant": "Holds for all states and sizes.", "anchors": ["surface_potential_analysis/wavepacket/localization/_wannier90.py:_build_amn_file", "surface_potential_analysis/wavepacket/localization/_wannier90.py:_build_k_points_block"]}
{"id": "C124", "title": "Symmetry of the samples", "statement": "x0_symmetry_op reverses the momentum of a sample along one axis, x0x1_symmetry_op exchanges the momenta along two axes; both undo themselves. The sample chosen to represent equivalent samples is the smallest of them, the same for all of them.", "quantifier": "all grids of samples, all samples and axes, all lists of operations", "why_tests_cant": "Holds for all grids; composition of operations is not visible in single examples.", "anchors": ["surface_potential_analysis/wavepacket/localization/_wannier90.py:x0_symmetry_op", "surface_potential_analysis/wavepacket/localization/_wannier90.py:x0x1_symmetry_op", "surface_potential_analysis/wavepacket/localization/_wannier90.py:_get_fundamental_k_points"]}
{"id": "C125", "title": "Conversion of probabilities", "statement": "Converting a probability vector to another basis gives probabilities: the total does not change, and in the position basis each point gets the sum of the probabilities of the states at this point. A list of probability vectors is converted vector by vector.", "quantifier": "all bases and probability vectors", "why_tests_cant": "The conversion runs for every basis and gives numbers of a plausible size; that they are not probabilities shows only in a proof or in special cases.", "anchors": ["surface_potential_analysis/probability_vector/conversion.py:convert_probability_vector_to_basis", "surface_potential_analysis/probability_vector/conversion.py:convert_probability_vector_list_to_basis", "surface_potential_analysis/probability_vector/conversion.py:convert_probability_vector_to_position_basis", "surface_potential_analysis/probability_vector/conversion.py:convert_probability_vector_to_momentum_basis"]}
{"id": "C126", "title": "What is drawn by the plot functions", "statement": "A slice drawn in position or momentum space along any axes consists of the points of the grid with the given index off the axes, each with the value of the function (or the coefficient of the plane wave) and the projected coordinates of this very point; momenta are drawn in ascending order. Lines have evenly spaced points and repeat the first value at the end, one period later. Without an index the slice goes through the largest absolute value.", "quantifier": "all bases, lattices, choices and orders of axes, and data", "why_tests_cant": "Plots are looked at, not tested; values paired with the coordinates of other points, or a slice through the wrong point, look just as plausible.", "anchors": ["surface_potential_analysis/util/plot.py:plot_data_1d_x", "surface_potential_analysis/util/plot.py:plot_data_1d_k", "surface_potential_analysis/util/plot.py:plot_data_2d_x", "surface_potential_analysis/util/plot.py:plot_data_2d_k", "surface_potential_analysis/util/plot.py:plot_data_1d", "surface_potential_analysis/stacked_basis/util.py:get_max_idx", "surface_potential_analysis/stacked_basis/util.py:get_x_coordinates_in_axes", "surface_potential_analysis/stacked_basis/util.py:get_k_coordinates_in_axes"]}
{"id": "C127", "title": "Colours of plots and animations", "statement": "The default limits of the colours contain every value drawn, in all frames of an animation, and are as tight as possible (starting at zero for absolute values); limits which are given are used. An animation through a surface has one frame for each point of the animated axis.", "quantifier": "all data, measures, limits and orders of axes", "why_tests_cant": "Holds for all data; clipped colours and missing frames raise no error.", "anchors": ["surface_potential_analysis/util/plot.py:_get_lim", "surface_potential_analysis/util/plot.py:_get_default_lim", "surface_potential_analysis/util/plot.py:build_animation", "surface_potential_analysis/util/plot.py:animate_data_through_surface_x"]}
{"id": "C128", "title": "Occupations and eigenvalues drawn", "statement": "The plot of the occupations of eigenstates shows every state once, in order of its energy above the lowest, with its normalised Boltzmann weight, and leaves its argument as it was. The plot of eigenvalues shows every eigenvalue once in order of the absolute value.", "quantifier": "all lists of energies and positive temperatures", "why_tests_cant": "Holds for all energies; a change of the caller's array is not seen by a test of the figure.", "anchors": ["surface_potential_analysis/state_vector/eigenvalue_list_plot.py:plot_eigenstate_occupations", "surface_potential_analysis/state_vector/eigenvalue_list_plot.py:plot_eigenvalues"]}
{"id": "C129", "title": "Lists of values drawn against time and frequency", "statement": "A list of values drawn against frequency shows the transform of the values at their times, with the right phase, at the multiples of one over the whole time in ascending order. Rows drawn on top of each other are cumulative sums. The average over rows shows the mean of the chosen measure and its standard error.", "quantifier": "all lists of values, time axes and measures", "why_tests_cant": "The phase depends on the offset of the times and the order of the frequencies on their number being odd or even; a test checks one.", "anchors": ["surface_potential_analysis/state_vector/plot_value_list.py:plot_value_list_against_time", "surface_potential_analysis/state_vector/plot_value_list.py:plot_value_list_against_frequency", "surface_potential_analysis/state_vector/plot_value_list.py:plot_split_value_list_against_time", "surface_potential_analysis/state_vector/plot_value_list.py:plot_split_value_list_against_frequency", "surface_potential_analysis/state_vector/plot_value_list.py:plot_all_value_list_against_time", "surface_potential_analysis/state_vector/plot_value_list.py:plot_average_value_list_against_time"]}
{"id": "C130", "title": "Sparsity of an operator", "statement": "The diagonals of an operator contain each of its entries once, and their squared norms add up to that of the operator. The cumulative plots count the entries (or diagonals) up to each value.", "quantifier": "all sizes and operators", "why_tests_cant": "Holds for all operators; off-by-one errors of bins and diagonals show only in a few points of a plot.", "anchors": ["surface_potential_analysis/operator/plot.py:_get_operator_diagonals", "surface_potential_analysis/operator/plot.py:plot_operator_sparsity", "surface_potential_analysis/operator/plot.py:plot_operator_diagonal_sparsity"]}
{"id": "C131", "title": "Potentials along paths", "statement": "A potential drawn along a path shows the potential at each of its points, repeated in all directions, against the length of the path so far. A path completed along one axis passes through the least value along this axis at each point.", "quantifier": "all lattices, grids, potentials, paths and axes (also negative)", "why_tests_cant": "Holds for all paths, also those leaving the cell.", "anchors": ["surface_potential_analysis/potential/plot.py:plot_potential_along_path", "surface_potential_analysis/potential/plot.py:get_minimum_path", "surface_potential_analysis/potential/plot.py:plot_potential_minimum_along_path"]}
{"id": "C132", "title": "Collapse operators made of hops", "statement": "The collapse operators made from the rates between tunnelling states transfer population between sites at most one cell apart, in different bands, at exactly the given rate (when it is at least one), and do nothing else. Each operator moves every cell by the same hop.", "quantifier": "all supercells, numbers of bands and rates which are the same in every cell", "why_tests_cant": "Duplicated hops in small supercells and raised errors depend on the shape of the supercell.", "anchors": ["surface_potential_analysis/dynamics/stochastic_schrodinger/solve.py:get_simplified_collapse_operators_from_a_matrix", "surface_potential_analysis/dynamics/stochastic_schrodinger/solve.py:get_collapse_operators_from_function"]}
{"id": "C133", "title": "Occupations of bands and sites drawn", "statement": "The occupation drawn for a band is at each time the sum over all cells of the probabilities of that band, the one for a site the sum over all bands, the averaged one the mean over all repeats, and the total is a single line.", "quantifier": "all times, cells, bands, repeats and probabilities", "why_tests_cant": "Summing over a wrong axis gives curves which also add up to one.", "anchors": ["surface_potential_analysis/probability_vector/plot.py:plot_probability_against_time", "surface_potential_analysis/probability_vector/plot.py:plot_total_probability_against_time", "surface_potential_analysis/dynamics/plot.py:plot_probability_per_band", "surface_potential_analysis/dynamics/plot.py:plot_average_probability_per_band", "surface_potential_analysis/dynamics/plot.py:plot_probability_per_site"]}
{"id": "C134", "title": "Truncation errors, samples and eigenvalues of kernels drawn", "statement": "The truncation error drawn for a kernel against the number of dropped operators is the least possible sum of the moduli of that many eigenvalues, and bounds the change of every entry of the kernel when the operators with the largest eigenvalues are kept. A single sample drawn has the covariance of the kernel. The eigenvalues are drawn from the largest to the smallest. The drawn percentage is the relative error of the fitted kernel.", "quantifier": "all sizes, Hermitian kernels, operators, truncations and random numbers", "why_tests_cant": "A truncation off by one or taking the wrong operators still gives a plausible curve.", "anchors": ["surface_potential_analysis/kernel/plot.py:plot_kernel_truncation_error", "surface_potential_analysis/kernel/plot.py:plot_diagonal_kernel_truncation_error", "surface_potential_analysis/kernel/plot.py:plot_diagonal_noise_operators_single_sample", "surface_potential_analysis/kernel/plot.py:plot_noise_kernel_single_sample", "surface_potential_analysis/kernel/plot.py:plot_diagonal_noise_operators_eigenvalues", "surface_potential_analysis/kernel/plot.py:_get_noise_kernel_percentage_error"]}
{"id": "C135", "title": "Effective mass of bands", "statement": "The effective mass obtained from the transformed energies of a band of a free particle tends to the mass of the particle as the number of samples grows, for every band. It does not depend on the zero of energy and is inversely proportional to the scale of energies; the plot of the transformed energies shows the same ratio to a free particle.", "quantifier": "all odd numbers of samples, bands, cells, masses; all energies, dimensions and axes for the dependence on zero and scale", "why_tests_cant": "It is a limit over the number of samples, and a wrong prefactor or a wrong dependence on the band shows in no single run.", "anchors": ["surface_potential_analysis/wavepacket/plot.py:get_wavepacket_transformed_energy_effective_mass", "surface_potential_analysis/wavepacket/plot.py:_get_free_energy", "surface_potential_analysis/wavepacket/plot.py:plot_wavepacket_transformed_energy_1d", "surface_potential_analysis/wavepacket/conversion.py:convert_wavepacket_with_eigenvalues_to_basis"]}
{"id": "C136", "title": "Occupations of eigenstates and bands drawn against energy", "statement": "The occupation drawn for a state against energy gives, for each eigenstate of the Hamiltonian, the squared amplitude of the state in it, against the energy above the lowest one. The occupations of a state add up to the square of its norm and have its mean energy. The total occupation of a band is the sum over all samples of the squared amplitudes of the Bloch states, drawn at the mean energy of the band, and the marked energy is the mean energy of the state. The thermal occupations of bands are sums of Boltzmann probabilities.", "quantifier": "all Hamiltonians, bases of the same space, lists of states, bands, samples, energies and temperatures", "why_tests_cant": "Wrong conjugation, order or weights leave occupations which still add up to one.", "anchors": ["surface_potential_analysis/state_vector/plot.py:_get_eigenstate_occupation", "surface_potential_analysis/state_vector/plot.py:plot_all_eigenstate_occupations", "surface_potential_analysis/state_vector/plot.py:plot_eigenstate_occupation", "surface_potential_analysis/state_vector/plot.py:plot_average_eigenstate_occupation", "surface_potential_analysis/state_vector/plot.py:get_average_band_energy", "surface_potential_analysis/state_vector/plot.py:plot_total_band_occupation_against_energy", "surface_potential_analysis/wavepacket/plot.py:get_wavepacket_band_occupation"]}
{"id": "C137", "title": "Differences of states and states along paths drawn", "statement": "The difference of two states drawn in position or momentum space is at each point the difference of the two wavefunctions relative to the larger modulus, whatever bases the states are given in: zero exactly where they agree, at most two, and of opposite sign when the states are exchanged. A state drawn along a path shows the wavefunction at each point of the path against the length of the path.", "quantifier": "all states, bases of the same grid, dimensions, slices and paths", "why_tests_cant": "A slice or a normalisation which is wrong for some bases is seen only for those.", "anchors": ["surface_potential_analysis/state_vector/plot.py:plot_state_difference_2d_x", "surface_potential_analysis/state_vector/plot.py:plot_state_difference_2d_k", "surface_potential_analysis/state_vector/plot.py:plot_state_difference_1d_k", "surface_potential_analysis/state_vector/plot.py:plot_state_along_path"]}
{"id": "C138", "title": "Energies of bands drawn against momentum and position, and momenta of the samples", "statement": "The momenta of the samples of a wavepacket are fractions of the reciprocal lattice vectors of the unit cell, the fractions at which the hamiltonians were generated, and no two samples differ by a reciprocal lattice vector. The energies of a band are drawn at the momenta of their samples, in ascending order along a reciprocal lattice vector, with the first energy repeated one reciprocal lattice vector later; drawn against position they are the transformed energies at lattice vectors. Samples at any fractions are drawn once each, sorted by momentum. The lines of all bands belong to the same momenta.", "quantifier": "all dimensions, unit cells, numbers of samples, bands, energies and measures", "why_tests_cant": "A shift by half a grid, a wrong spacing or another slice gives lines which look alike; plots are not compared in tests.", "anchors": ["surface_potential_analysis/wavepacket/wavepacket.py:get_fundamental_sample_basis", "surface_potential_analysis/wavepacket/wavepacket.py:get_wavepacket_fundamental_sample_frequencies", "surface_potential_analysis/wavepacket/plot.py:plot_wavepacket_sample_frequencies", "surface_potential_analysis/wavepacket/plot.py:plot_wavepacket_eigenvalues_1d_k", "surface_potential_analysis/wavepacket/plot.py:plot_wavepacket_eigenvalues_1d_x", "surface_potential_analysis/wavepacket/plot.py:plot_wavepacket_eigenvalues_2d_k", "surface_potential_analysis/wavepacket/plot.py:plot_uneven_wavepacket_eigenvalues_1d_k"]}
{"id": "C139", "title": "The Schr\u00f6dinger equation solved by the external solver", "statement": "The states returned by the solver based on qutip satisfy the Schr\u00f6dinger equation of the Hamiltonian with the initial state, and are those of the decomposition into eigenstates, for all times.", "quantifier": "all sizes, Hermitian Hamiltonians, initial states and evenly spaced times", "why_tests_cant": "Agreement at sampled times says nothing about times with an offset, for which the two solvers differ.", "anchors": ["surface_potential_analysis/dynamics/schrodinger/solve.py:solve_schrodinger_equation"]}
{"id": "C140", "title": "Temperature-corrected gaussian noise operators of a Hamiltonian", "statement": "The temperature-corrected gaussian noise operators of a Hamiltonian, in whatever basis the Hamiltonian is given, are L - [H, L] / 4kT with the matrix of the Hamiltonian as given and L the matrix elements of multiplication by functions of position; the noise of these functions is the gaussian of the distance between the points, with the amplitude and length asked for, or those which follow from friction and temperature. The strengths of the operators are not changed by the correction. Linear operators on several axes expand the same gaussian.", "quantifier": "all dimensions, lattices, grids, bases (also truncated), Hamiltonians, amplitudes, lengths, temperatures, frictions and truncations", "why_tests_cant": "The correction is made in the position basis and converted afterwards; that this equals the correction in a truncated basis needs orthonormality of the states, for all bases.", "anchors": ["surface_potential_analysis/kernel/build.py:get_temperature_corrected_noise_operators", "surface_potential_analysis/kernel/build.py:get_temperature_corrected_diagonal_noise_operators", "surface_potential_analysis/kernel/gaussian.py:get_temperature_corrected_gaussian_noise_operators", "surface_potential_analysis/kernel/gaussian.py:get_temperature_corrected_effective_gaussian_noise_operators", "surface_potential_analysis/kernel/gaussian.py:get_effective_gaussian_noise_operators_periodic", "surface_potential_analysis/kernel/gaussian.py:get_linear_gaussian_operators_explicit_taylor_stacked", "surface_potential_analysis/kernel/kernel.py:get_isotropic_kernel_from_operators"]}
{"id": "C141", "title": "Bases built from shapes, lattice vectors and other bases", "statement": "A basis made from another one, with another number of points or of another fundamental kind, has the lattice vectors of the first (hence its wave vectors and volume) and the number of points asked for; its points are at the fractions index / number of points of the lattice vectors, so a grid with a multiple of the points contains the first. Without vectors, the axes are the unit vectors. A wrong number of sizes raises. The index mirrored about x0 = x1 is the index of the mirror image. Bloch fractions of an evenly spaced basis are the sampled fractions of the zone, within [-1/2, 1/2).", "quantifier": "all dimensions, lattices, kinds of axes, shapes, indices, steps and offsets", "why_tests_cant": "The points are combinations of lattice vectors for all indices; a test checks a few shapes. Mirrors on oblique lattices and offsets which wrap around need a proof.", "anchors": ["surface_potential_analysis/basis/conversion.py:basis_as_fundamental_position_basis", "surface_potential_analysis/basis/conversion.py:basis_as_fundamental_momentum_basis", "surface_potential_analysis/basis/conversion.py:basis_as_single_point_basis", "surface_potential_analysis/basis/conversion.py:basis_as_n_point_basis", "surface_potential_analysis/stacked_basis/conversion.py:stacked_basis_as_fundamental_with_shape", "surface_potential_analysis/stacked_basis/conversion.py:stacked_basis_as_fundamental_position_basis", "surface_potential_analysis/stacked_basis/conversion.py:stacked_basis_as_fundamental_momentum_basis", "surface_potential_analysis/stacked_basis/build.py:position_basis_3d_from_parent", "surface_potential_analysis/stacked_basis/build.py:position_basis_from_shape", "surface_potential_analysis/stacked_basis/build.py:momentum_basis_3d_from_resolution", "surface_potential_analysis/stacked_basis/util.py:get_x01_mirrored_index", "surface_potential_analysis/basis/block_fraction_basis.py:EvenlySpacedBlockFractionBasis"]}
{"id": "C142", "title": "Effective masses from localised states, and the plots of masses", "statement": "The effective mass of a band from its localised states is computed from the matrix element of the Hamiltonian between the localised state and the next one along the axis; it agrees with the effective mass from the Fourier series of the energies and for a free particle tends to the mass. The plots draw the mass, or its relative difference to a true mass, and the thermal occupations, at the average energy of the band.", "quantifier": "all numbers of samples and axes, energies, phases, lattices, masses", "why_tests_cant": "A limit of many samples, and an index order which only matters with several bands.", "anchors": ["surface_potential_analysis/wavepacket/plot.py:get_wavepacket_localized_effective_mass", "surface_potential_analysis/wavepacket/plot.py:plot_wavepacket_localized_effective_mass_against_energy", "surface_potential_analysis/wavepacket/plot.py:plot_wavepacket_transformed_energy_effective_mass_against_energy", "surface_potential_analysis/wavepacket/plot.py:plot_occupation_against_band_average_energy"]}
{"id": "C143", "title": "Plots of wavepackets", "statement": "A wavepacket drawn in position space shows, at each point of a cell with as many unit cells as there are samples, the sum of the Bloch waves of all samples, at the coordinates of the point in the crystal; in momentum space, at the momentum of a sample plus a reciprocal lattice vector, the coefficient of this plane wave in the periodic part of the sample. All states of a wavepacket drawn one by one are the Bloch waves of the samples. Differences, paths and energies are drawn at the same coordinates, the energies in position space being their Fourier sum at the lattice vectors; along a line the energies are drawn against the Bloch phase.", "quantifier": "all numbers of axes, samples and points, lattices, bases of the Bloch states, slices, paths, measures", "why_tests_cant": "A sum over all samples with phases, and coordinates in a cell which depends on the number of samples, for every basis and size.", "anchors": ["surface_potential_analysis/wavepacket/plot.py:plot_wavepacket_1d_x", "surface_potential_analysis/wavepacket/plot.py:plot_wavepacket_1d_k", "surface_potential_analysis/wavepacket/plot.py:plot_wavepacket_2d_x", "surface_potential_analysis/wavepacket/plot.py:plot_wavepacket_2d_k", "surface_potential_analysis/wavepacket/plot.py:plot_all_wavepacket_states_2d_x", "surface_potential_analysis/wavepacket/plot.py:plot_all_wavepacket_states_2d_k", "surface_potential_analysis/wavepacket/plot.py:plot_wavepacket_difference_2d_x", "surface_potential_analysis/wavepacket/plot.py:plot_wavepacket_along_path", "surface_potential_analysis/wavepacket/plot.py:plot_wavepacket_eigenvalues_2d_x", "surface_potential_analysis/wavepacket/plot.py:plot_eigenvalues_1d_x", "surface_potential_analysis/wavepacket/plot.py:plot_occupation_against_band"]}
{"id": "C144", "title": "Fits of scattering functions", "statement": "A fit of a double exponential has rates which are not negative and amplitudes between zero and one, and is one at time zero. When the measured values at the times used are those of the model (double exponential, jump model along 110 or 112bar, four-variable model, with or without a fixed ratio of the rates), the function computed back from the fit has these values; a fixed ratio is kept, and the fit with a fixed ratio uses only times strictly between the start and the end. The rates called fast and slow are the larger and the smaller one. The rates of the jump model extracted from a double exponential give a function which decays with exactly the two rates of the exponentials.", "quantifier": "all times, values, measures, ratios, momenta, all least-squares and root finding routines as specified", "why_tests_cant": "It quantifies over all data and over what the optimiser may return; whether rates exist, and whether they are determined, is a statement about all solutions of the equations.", "anchors": ["surface_potential_analysis/dynamics/isf.py:fit_isf_to_double_exponential", "surface_potential_analysis/dynamics/isf.py:get_isf_from_4_variable_fit", "surface_potential_analysis/dynamics/isf.py:extract_fey_rate_from_4_variables_fit_112bar", "surface_potential_analysis/dynamics/isf.py:fit_isf_to_fey_4_variable_model_110_fixed_ratio", "surface_potential_analysis/dynamics/isf.py:fit_isf_to_fey_4_variable_model_110", "surface_potential_analysis/dynamics/isf.py:fit_isf_to_fey_model_110", "surface_potential_analysis/dynamics/isf.py:fit_isf_to_fey_model_112bar", "surface_potential_analysis/dynamics/isf.py:get_isf_from_fey_model_fit_110", "surface_potential_analysis/dynamics/isf.py:get_isf_from_fey_model_fit_112bar", "surface_potential_analysis/dynamics/isf.py:get_isf_from_fey_4_variable_model_110"]}
{"id": "C145", "title": "Diagonal localisation operators", "statement": "The diagonal form of a localisation operator holds, for every sample, the diagonal matrix elements of the operator in the new states; for the same states on both sides these are the diagonal entries. Going from a diagonal operator to the full operator and back gives the operator again, going from a full operator to the diagonal one and back keeps the diagonal and drops the rest. A diagonal operator and its full form localise wavepackets in the same way, and phases keep wavepackets orthonormal. Picking an operator from a list of diagonal operators gives the same in both ways, and the flat view of a list has a basis with as many states as it has entries.", "quantifier": "all bases, numbers of samples and bands, all operators and wavepackets", "why_tests_cant": "It is a statement about all operators in all bases; a test with the identity basis or with phases only does not see a wrong conversion or dropped entries.", "anchors": ["surface_potential_analysis/wavepacket/localization_operator.py:localization_operator_as_diagonal", "surface_potential_analysis/wavepacket/localization_operator.py:diagonal_localization_operator_as_full", "surface_potential_analysis/wavepacket/localization_operator.py:get_diagonal_localized_wavepackets", "surface_potential_analysis/operator/operator_list.py:as_flat_operator", "surface_potential_analysis/operator/operator_list.py:as_diagonal_operator", "surface_potential_analysis/operator/operator_list.py:select_diagonal_operator"]}
{"id": "C146", "title": "Components of sampled noise and displacements from an origin", "statement": "The components of sampled noise are one for each noise operator, add up to the noise, and for standard normal random numbers are uncorrelated with one another; the covariance of a component is hbar times the modulus of its eigenvalue times the kernel of its operator. The displacements of the grid points from an origin lie within half the length of each axis, differ from the plain displacement by lattice vectors, and together give the distance on the torus.", "quantifier": "all operators, numbers of samples, random numbers with the stated moments; all orthogonal lattices of any dimension, grids and origins", "why_tests_cant": "Covariances are integrals over all random numbers; the wrapping has to hold at all points and all origins including the boundary of the cell.", "anchors": ["surface_potential_analysis/kernel/sample.py:get_diagonal_split_noise_components", "surface_potential_analysis/kernel/sample.py:sample_noise_from_diagonal_operators_split", "surface_potential_analysis/operator/build.py:get_displacements_x_stacked", "surface_potential_analysis/operator/build.py:_get_displacements_x_along_axis"]}
{"id": "C147", "title": "States, dual states, wavepackets and potentials at the points and in plane waves", "statement": "Converting a state to the position basis gives the values of its function at the points, converting to the momentum basis its overlaps with the plane waves of the grid. Both keep the norm, converting back gives the state, and going to one by way of the other gives the same as going directly. Dual states become the conjugates, and the pairing of a dual state with a state is the same in all three bases. Wavepackets are converted state by state with the list of samples kept. A potential becomes its values at the points.", "quantifier": "all bases with orthonormal explicit parts, of any number of axes and any size, all states, dual states, wavepackets and potentials", "why_tests_cant": "It is a statement about all bases and vectors; a test in one dimension with a full basis does not see wrong axes, missed conjugation or lost norm for truncated and explicit bases.", "anchors": ["surface_potential_analysis/state_vector/conversion.py:convert_state_vector_to_position_basis", "surface_potential_analysis/state_vector/conversion.py:convert_state_vector_to_momentum_basis", "surface_potential_analysis/state_vector/conversion.py:convert_state_dual_vector_to_position_basis", "surface_potential_analysis/state_vector/conversion.py:convert_state_dual_vector_to_momentum_basis", "surface_potential_analysis/wavepacket/conversion.py:convert_wavepacket_to_position_basis", "surface_potential_analysis/wavepacket/conversion.py:convert_wavepacket_to_fundamental_momentum_basis", "surface_potential_analysis/potential/conversion.py:convert_potential_to_position_basis"]}
{"id": "C148", "title": "Localising with tight binding states and gaussians", "statement": "localize_tight_binding_projection multiplies the state of every sample by a phase, such that its overlap with the tight binding state (the state of the first sample, cut off outside of the unit cell around its largest value) is real and not negative; the state of the first sample is kept. localize_wavepacket_gaussian_projection does so for a normalised gaussian around the origin with the width of the unit cell. With the tight binding states of several bands orthonormal wavepackets stay orthonormal, and the overlaps with the tight binding states become a positive matrix at every sample. This holds in any number of dimensions.", "quantifier": "all bases, numbers of samples, points and bands, all wavepackets, all decompositions which the singular value routine may return", "why_tests_cant": "Singular value decompositions are not unique, and the phases depend on all samples; a test with one wavepacket can be right by accident.", "anchors": ["surface_potential_analysis/wavepacket/localization/_projection.py:localize_tight_binding_projection", "surface_potential_analysis/wavepacket/localization/_projection.py:get_localization_operator_tight_binding_projections", "surface_potential_analysis/wavepacket/localization/_projection.py:localize_wavepacket_gaussian_projection"]}
{"id": "C149", "title": "Position between states", "statement": "The matrix of the position operator between a list of states has as entry (i, j) the sum over the points of the grid of the conjugated value of state i, the first component of the point, and the value of state j, in whatever basis the states are given; it is Hermitian. localize_position_operator_many_band combines orthonormal states with the coefficients of its eigenvectors: the result is orthonormal, the position is diagonal between the new states, and the mean position in each of them is the eigenvalue, which lies within the bounds of the positions of the points.", "quantifier": "all bases with orthonormal states, unit cells in any number of dimensions, numbers of points and of states, all results of the eigenvalue routine", "why_tests_cant": "The states are usually given by plane waves, so every entry depends on the conversion between bases; a test on one list of states does not see conjugated or transposed coefficients when these are real.", "anchors": ["surface_potential_analysis/wavepacket/localization/_operator.py:_get_position_operator", "surface_potential_analysis/wavepacket/localization/_operator.py:_get_operator_between_states", "surface_potential_analysis/wavepacket/localization/_operator.py:localize_position_operator_many_band", "surface_potential_analysis/state_vector/eigenstate_calculation.py:calculate_operator_inner_product"]}
{"id": "C150", "title": "Drawing potentials", "statement": "The comparison points of (111) and (100) surfaces are the grid points at the sites of the surface, and a comparison shows under each label the potential above its site. A slice through a potential, in whatever basis, shows the potential at the points of the slice with their coordinates, a slice through a difference the difference of the two potentials, and an animation the potential frame by frame. Lines of uneven potentials show the heights and energies above a point. The locations of a point potential are the different pairs of x and y in order, and drawing all of them draws each point exactly once.", "quantifier": "all bases with orthonormal states, grids, orders of the axes, offsets, lists of points, and all potentials", "why_tests_cant": "The drawn numbers depend on conversions and on rounded site indices for every grid; a test with one grid does not see a swapped pair of axes, an index outside of the grid, or a potential drawn without conversion.", "anchors": ["surface_potential_analysis/potential/_comparison_points.py:get_111_comparison_points_x2", "surface_potential_analysis/potential/_comparison_points.py:get_100_comparison_points_x2", "surface_potential_analysis/potential/plot.py:plot_potential_1d_comparison", "surface_potential_analysis/potential/plot.py:plot_potential_1d_x2_comparison_111", "surface_potential_analysis/potential/plot.py:plot_potential_1d_x2_comparison_100", "surface_potential_analysis/potential/plot.py:plot_potential_2d_x", "surface_potential_analysis/potential/plot.py:plot_potential_difference_2d_x", "surface_potential_analysis/potential/plot.py:animate_potential_3d_x", "surface_potential_analysis/potential/plot.py:animate_potential_difference_3d_x", "surface_potential_analysis/potential/plot_uneven_potential.py:plot_uneven_potential_z", "surface_potential_analysis/potential/plot_point_potential.py:get_point_potential_xy_locations", "surface_potential_analysis/potential/plot_point_potential.py:plot_point_potential_all_z"]}
{"id": "C151", "title": "Hamiltonian with oscillator states normal to the surface", "statement": "total_surface_hamiltonian of sho_subtracted_basis gives, between products of plane waves in the surface and oscillator states normal to it, the kinetic energy in the surface (with the Bloch phase) and the energy of the oscillator on the diagonal, plus the matrix elements of the potential less the potential of the oscillator.", "quantifier": "all lattices with a third vector normal to the surface, grids, potentials, masses, frequencies, origins, Bloch fractions and resolutions within the guard", "why_tests_cant": "The subtracted oscillator must match the states to which its energy belongs for every grid and origin, through a Fourier transform and compiled code; a comparison at one resolution does not separate a shifted origin or a wrong normalisation from the discretisation error.", "anchors": ["surface_potential_analysis/hamiltonian_builder/sho_subtracted_basis.py:total_surface_hamiltonian", "surface_potential_analysis/hamiltonian_builder/sho_subtracted_basis.py:_SurfaceHamiltonianUtil._calculate_off_diagonal_energies_fast", "surface_potential_analysis/hamiltonian_builder/sho_subtracted_basis.py:_SurfaceHamiltonianUtil._calculate_diagonal_energy", "surface_potential_analysis/hamiltonian_builder/sho_subtracted_basis.py:_SurfaceHamiltonianUtil.get_ft_potential", "surface_potential_analysis/stacked_basis/sho_basis.py:infinate_sho_basis_3d_from_config"]}
{"id": "C152", "title": "The two sites of a wavepacket and the locations of the bands", "statement": "get_wavepacket_two_points gives the point of the unit cell at which the modulus of the wavefunction is largest and its mirror image under exchange of the first two axes, both wrapped to within half a cell of the offset; the bands of the tunnelling simulation are located, in fractions of the unit cell, at the mean of these two points, one state for each band.", "quantifier": "all numbers of samples, shapes of the cell, orthonormal bases, wavefunctions and offsets", "why_tests_cant": "The indices pass through a maximum over the large cell, two different wrappings and an exchange of axes; a test with one wavepacket localised near the origin cannot show which cell or which unit the result is in.", "anchors": ["surface_potential_analysis/wavepacket/localization/_tight_binding.py:get_wavepacket_two_points", "surface_potential_analysis/dynamics/tunnelling_basis.py:TunnellingSimulationBandsBasis.from_wavepackets", "surface_potential_analysis/dynamics/tunnelling_basis.py:get_basis_from_shape", "surface_potential_analysis/stacked_basis/util.py:get_x01_mirrored_index"]}
{"id": "C153", "title": "The points drawn for a lattice", "statement": "plot_bragg_points_projected_2d draws the projections of the combinations of the vectors n_i b_i with coefficients -1, 0 and 1; plot_fundamental_x_in_plane_projected_2d and plot_fundamental_k_in_plane_projected_2d draw the projections of the points of the grid in the plane with the given index along the remaining axis, each once; plot_fundamental_x_at_index_projected_2d draws the projection of the position with the given index; plot_brillouin_zone_points_projected_2d draws, for each pair of indices along the first two axes, an equivalent point in the first Brillouin zone.", "quantifier": "all lattices in three dimensions, shapes, pairs of axes and indices", "why_tests_cant": "Slices of arrays with a leading axis of components are right by accident for symmetric shapes, and two decrements reach the zone for every lattice that is not very skewed.", "anchors": ["surface_potential_analysis/stacked_basis/plot.py:plot_k_points_projected_2d", "surface_potential_analysis/stacked_basis/plot.py:plot_brillouin_zone_points_projected_2d", "surface_potential_analysis/stacked_basis/plot.py:plot_bragg_points_projected_2d", "surface_potential_analysis/stacked_basis/plot.py:plot_fundamental_k_in_plane_projected_2d", "surface_potential_analysis/stacked_basis/plot.py:plot_x_points_projected_2d", "surface_potential_analysis/stacked_basis/plot.py:plot_fundamental_x_in_plane_projected_2d", "surface_potential_analysis/stacked_basis/plot.py:plot_fundamental_x_at_index_projected_2d", "surface_potential_analysis/stacked_basis/util.py:project_k_points_along_axes", "surface_potential_analysis/stacked_basis/util.py:project_x_points_along_axes"]}
{"id": "C154", "title": "Lists of states drawn as lines and animations", "statement": "animate_state_over_list_1d_x/_1d_k/_2d_x/_2d_k have one frame for each state of the list and plot_states_1d_x/_k one line, in the order of the list; with an index, number i shows the values of state i (or of the coefficients of its plane waves) along the axes through this index at the right coordinates, whatever the basis of the states; without an index all frames show the same line or plane.", "quantifier": "all lists of states in valid orthonormal bases, lattices, axes, indices and measures", "why_tests_cant": "The rows of the converted data, the slice and its coordinates are computed separately for each frame; with one axis or a single state the missing index makes no difference.", "anchors": ["surface_potential_analysis/state_vector/plot.py:animate_state_over_list_1d_x", "surface_potential_analysis/state_vector/plot.py:animate_state_over_list_1d_k", "surface_potential_analysis/state_vector/plot.py:animate_state_over_list_2d_x", "surface_potential_analysis/state_vector/plot.py:animate_state_over_list_2d_k", "surface_potential_analysis/state_vector/plot.py:plot_state_1d_x", "surface_potential_analysis/state_vector/plot.py:plot_state_1d_k", "surface_potential_analysis/util/plot.py:animate_data_through_list_1d_x", "surface_potential_analysis/util/plot.py:animate_data_through_list_1d_k", "surface_potential_analysis/util/plot.py:animate_data_through_list_2d_x", "surface_potential_analysis/util/plot.py:animate_data_through_list_2d_k", "surface_potential_analysis/state_vector/state_vector_list_plot.py:plot_states_1d_x", "surface_potential_analysis/state_vector/state_vector_list_plot.py:plot_states_1d_k"]}
{"id": "C155", "title": "Operators drawn along their diagonal", "statement": "plot_operator_along_diagonal_1d_x/_2d_x and the versions for diagonal operators draw the diagonal of the operator in position space, whatever its basis, along the chosen axes at the right coordinates, without an index through its maximum; plot_operator_along_diagonal, plot_diagonal_operator_along_diagonal and animate_diagonal_operator_list_along_diagonal draw the diagonal entries of the operators against their index.", "quantifier": "all operators between valid orthonormal bases, lattices, axes, indices and measures", "why_tests_cant": "In the fundamental basis the diagonal and the vector with the same entries agree, so tests with operators in position space cannot tell whether the diagonal is converted as an operator or as a vector.", "anchors": ["surface_potential_analysis/operator/plot.py:plot_operator_along_diagonal_1d_x", "surface_potential_analysis/operator/plot.py:plot_operator_along_diagonal_2d_x", "surface_potential_analysis/operator/plot.py:plot_diagonal_operator_along_diagonal_1d_x", "surface_potential_analysis/operator/plot.py:plot_diagonal_operator_along_diagonal_2d_x", "surface_potential_analysis/operator/plot.py:plot_operator_along_diagonal", "surface_potential_analysis/operator/plot.py:plot_diagonal_operator_along_diagonal", "surface_potential_analysis/operator/plot.py:animate_diagonal_operator_list_along_diagonal", "surface_potential_analysis/util/plot.py:plot_data_1d_n", "surface_potential_analysis/util/plot.py:animate_data_through_list_1d_n"]}
{"id": "C156", "title": "Histograms of values and of the eigenvalues of kernels", "statement": "plot_value_list_distribution draws at least 11 even bins which cover the values, the area of each bar is the fraction of the values in its bin and the areas sum to one; with a distribution the bins cover four standard deviations around the average, all values are counted, and the normal curve has the average and standard deviation of the values; plot_k_distribution_1d and plot_x_distribution_1d draw it for the expectation values of momentum and position of each state; plot_kernel_sparsity draws the number of eigenvalues below each of the points, which are spaced evenly on a logarithmic scale from the smallest to the largest, and ends with all of them.", "quantifier": "all lists of values, all lists of states in valid orthonormal bases along one axis, all positive eigenvalues", "why_tests_cant": "Whether a value at an edge, an outlier or the largest value is counted depends on the data; samples from a normal distribution have no outliers, and tests look at no numbers of a figure.", "anchors": ["surface_potential_analysis/state_vector/plot_value_list.py:plot_value_list_distribution", "surface_potential_analysis/state_vector/plot.py:plot_k_distribution_1d", "surface_potential_analysis/state_vector/plot.py:plot_x_distribution_1d", "surface_potential_analysis/kernel/plot.py:plot_kernel_sparsity"]}
{"id": "C157", "title": "The scattering function of a tunnelling simulation", "statement": "calculate_isf_at_times gives the mean of the phases of the displacements over the occupations of the simulation at each time, of modulus at most one, and one at the time zero for a single occupied state; calculate_equilibrium_state_averaged_isf and calculate_equilibrium_initial_state_isf average it over the equilibrium occupation of the bands; get_jump_matrix_from_a_matrix gives back the jump rates of a matrix of rates, with which resample_tunnelling_a_matrix gives the matrix on another supercell; get_a_matrix_reduced_bands keeps the rates between the first bands.", "quantifier": "all simulations of finitely many cells and bands, all rate matrices, initial distributions, times and momentum transfers", "why_tests_cant": "The bound holds for all rates and times only through conservation of probability; that the functions raise for every input is not seen by tests of the functions they call.", "anchors": ["surface_potential_analysis/dynamics/incoherent_propagation/isf.py:calculate_isf_at_times", "surface_potential_analysis/dynamics/incoherent_propagation/isf.py:calculate_equilibrium_state_averaged_isf", "surface_potential_analysis/dynamics/incoherent_propagation/isf.py:calculate_equilibrium_initial_state_isf", "surface_potential_analysis/dynamics/incoherent_propagation/tunnelling_matrix.py:get_jump_matrix_from_a_matrix", "surface_potential_analysis/dynamics/incoherent_propagation/tunnelling_matrix.py:resample_tunnelling_a_matrix", "surface_potential_analysis/dynamics/incoherent_propagation/tunnelling_matrix.py:get_a_matrix_reduced_bands", "surface_potential_analysis/dynamics/incoherent_propagation/tunnelling_matrix.py:density_matrix_list_as_probabilities"]}
{"id": "C158", "title": "Operators and kernels drawn as matrices", "statement": "plot_operator_2d, plot_operator_2d_diagonal and plot_kernel_2d draw every entry of the matrix in its row and column, with limits of the colours containing all values; plot_diagonal_kernel_2d draws the elements of a diagonal kernel with the first state in the middle; plot_eigenvalues and plot_eigenstate_occupations of an operator draw its eigenvalues and their Boltzmann weights; plot_noise_operators_single_sample_x draws the combination of the diagonals of the operators in position space with the random factors; plot_isotropic_noise_kernel_1d_x and _2d_x draw the kernel at each displacement; plot_isotropic_kernel_error_1d and _1d_x draw the error of a fitted kernel in percent of the true one.", "quantifier": "all bases of orthonormal states, operators, kernels, random factors and numbers of points", "why_tests_cant": "The place of every entry and the change of basis have to be right for all shapes and bases; comparing pictures settles a few of them.", "anchors": ["surface_potential_analysis/operator/plot.py:plot_operator_2d", "surface_potential_analysis/operator/plot.py:plot_operator_2d_diagonal", "surface_potential_analysis/operator/plot.py:plot_eigenvalues", "surface_potential_analysis/operator/plot.py:plot_eigenstate_occupations", "surface_potential_analysis/kernel/plot.py:plot_kernel_2d", "surface_potential_analysis/kernel/plot.py:plot_diagonal_kernel_2d", "surface_potential_analysis/kernel/plot.py:plot_noise_operators_single_sample_x", "surface_potential_analysis/kernel/plot.py:plot_isotropic_noise_kernel_1d_x", "surface_potential_analysis/kernel/plot.py:plot_isotropic_noise_kernel_2d_x", "surface_potential_analysis/kernel/plot.py:plot_isotropic_kernel_error_1d", "surface_potential_analysis/kernel/plot.py:plot_isotropic_kernel_error_1d_x", "surface_potential_analysis/util/plot.py:plot_data_2d"]}
{"id": "C159", "title": "Averages along trajectories as they are drawn", "statement": "plot_average_displacement_1d_x, plot_average_isf_1d_x and plot_average_drift_1d_x draw, against the time between two samples, the mean over all trajectories of the mean squared displacement, of the scattering function (its real part or absolute value) and of the drift, with the standard error on both sides, where the positions of the states are followed across the boundary of the cell; plot_averaged_occupation_1d_k draws the expectation of the momentum against time for each trajectory; plot_spread_against_k and plot_spread_against_x draw the width of each state against its mean momentum and position; plot_periodic_x_distribution_1d draws the histogram of the positions in the cell; plot_value_list_against_momentum draws values against the momenta of the basis.", "quantifier": "all states, numbers of trajectories and times, positions which move by less than half a cell between two times", "why_tests_cant": "The time axis, the average and the positions have to be right for all trajectories, also those which leave the cell; a picture of a few simulations does not settle this.", "anchors": ["surface_potential_analysis/state_vector/plot.py:plot_average_displacement_1d_x", "surface_potential_analysis/state_vector/plot.py:plot_average_isf_1d_x", "surface_potential_analysis/state_vector/plot.py:plot_average_drift_1d_x", "surface_potential_analysis/state_vector/plot.py:plot_averaged_occupation_1d_k", "surface_potential_analysis/state_vector/plot.py:plot_spread_against_k", "surface_potential_analysis/state_vector/plot.py:plot_spread_against_x", "surface_potential_analysis/state_vector/plot.py:plot_periodic_x_distribution_1d", "surface_potential_analysis/state_vector/plot_value_list.py:plot_value_list_against_momentum", "surface_potential_analysis/state_vector/plot_value_list.py:plot_average_value_list_against_time", "surface_potential_analysis/basis/momentum_basis_like.py:MomentumBasis"]}
{"id": "C160", "title": "Scattering functions and rates as they are drawn", "statement": "plot_isf_against_time and plot_eigenvalue_against_time draw the measured values against the times of their basis with the standard deviations as error bars, from the first to the last time; plot_average_isf_against_time draws the average over the first axis; the plots of fits draw the documented double exponential, and for the jump models along 110 and 112bar the total Fourier component of the occupations, which falls from one and stays within the limits of the picture; plot_rate_decomposition_against_temperature draws the fifty rates with the largest coefficients in this order.", "quantifier": "all fits with positive rates, times, values and rate decompositions", "why_tests_cant": "The curves have to agree with the models for all parameters and times; a picture of one fit does not settle this.", "anchors": ["surface_potential_analysis/dynamics/isf_plot.py:plot_isf_against_time", "surface_potential_analysis/dynamics/isf_plot.py:plot_average_isf_against_time", "surface_potential_analysis/dynamics/isf_plot.py:plot_isf_4_variable_fit_against_time", "surface_potential_analysis/dynamics/isf_plot.py:plot_isf_fey_4_variable_fit_against_time", "surface_potential_analysis/dynamics/isf_plot.py:plot_isf_fey_model_fit_112bar_against_time", "surface_potential_analysis/dynamics/isf_plot.py:plot_isf_fey_model_fit_110_against_time", "surface_potential_analysis/state_vector/eigenvalue_list_plot.py:plot_eigenvalue_against_time", "surface_potential_analysis/dynamics/incoherent_propagation/plot.py:plot_rate_decomposition_against_temperature"]}
{"id": "C161", "title": "Animations of a state and of a wavepacket in three dimensions", "statement": "animate_state_3d_x and animate_wavepacket_3d_x show one frame for each point of the last of the three chosen axes, in ascending order; each frame shows the measured values of the state (the sum of the Bloch waves for a wavepacket) at the points of the plane of the other two axes, at the positions of these points, whatever the basis of the state; axes which are not drawn are held at the given index, by default the first point.", "quantifier": "all states, wavepackets, lattices, choices of axes, indices and measures", "why_tests_cant": "Frames and coordinates have to match for every choice and order of the axes; unit tests would need to draw and inspect pictures.", "anchors": ["surface_potential_analysis/state_vector/plot.py:animate_state_3d_x", "surface_potential_analysis/wavepacket/plot.py:animate_wavepacket_3d_x", "surface_potential_analysis/util/plot.py:animate_data_through_surface_x"]}
{"id": "C162", "title": "Probabilities as they are drawn", "statement": "plot_probability_1d_x, plot_probability_2d_x, plot_probability_1d_k and plot_probability_2d_k draw at each position or wave number the probability of it; plot_state_2d_x and plot_state_2d_k draw the state and its plane wave coefficients whatever its basis.", "quantifier": "all probability vectors, states, lattices, axes and indices", "why_tests_cant": "Whether the numbers drawn are probabilities depends on the conversion between bases for all data, not on one picture.", "anchors": ["surface_potential_analysis/probability_vector/plot.py:plot_probability_1d_x", "surface_potential_analysis/probability_vector/plot.py:plot_probability_2d_x", "surface_potential_analysis/probability_vector/plot.py:plot_probability_1d_k", "surface_potential_analysis/probability_vector/plot.py:plot_probability_2d_k", "surface_potential_analysis/state_vector/plot.py:plot_state_2d_x", "surface_potential_analysis/state_vector/plot.py:plot_state_2d_k"]}
{"id": "C163", "title": "Overlaps as they are drawn", "statement": "plot_overlap_2d_x and plot_overlap_2d_k draw the product of the two functions of an overlap at each position and its plane wave coefficients; plot_overlap_along_path_k, plot_overlap_along_k_diagonal and plot_overlap_along_k0 draw the coefficients along a path.", "quantifier": "all overlaps of lists of states, shifts, axes, indices and paths", "why_tests_cant": "The claim is about all overlaps and paths; the functions have no tests.", "anchors": ["surface_potential_analysis/overlap/plot.py:plot_overlap_2d_x", "surface_potential_analysis/overlap/plot.py:plot_overlap_2d_k", "surface_potential_analysis/overlap/plot.py:plot_overlap_along_path_k", "surface_potential_analysis/overlap/plot.py:plot_overlap_along_k_diagonal", "surface_potential_analysis/overlap/plot.py:plot_overlap_along_k0"]}
{"id": "C164", "title": "The hamiltonian with the shape of the surface ignored", "statement": "total_surface_hamiltonian_as_fundamental gives the same matrix elements as total_surface_hamiltonian, those of the full hamiltonian between the plane waves and the states normal to the surface, in a basis with as many points in the surface as there are plane waves; a vector of coefficients is in this basis the same function, sampled at fewer points.", "quantifier": "all potentials, lattices with a normal third vector, resolutions, Bloch fractions in the surface, and coefficients", "why_tests_cant": "That both bases describe the same functions is an identity between plane waves for all sizes and all coefficients; a test sees one matrix.", "anchors": ["surface_potential_analysis/hamiltonian_builder/explicit_z_basis.py:total_surface_hamiltonian_as_fundamental"]}
{"id": "C165", "title": "Bases of the lowest eigenstates of a potential", "statement": "get_potential_basis_config_basis and sho_basis_3d_from_config give a basis of the requested number of functions on the points of the axis, which are orthonormal eigenfunctions of the kinetic energy plus the potential (for the oscillator: the harmonic potential), in the order of their energy, and every function orthogonal to them has at least the highest of these energies; more states than points raise.", "quantifier": "all potentials, lengths, numbers of points and of states, masses, frequencies and origins, and all eigenvalue routines meeting their contract", "why_tests_cant": "Orthonormality, the eigenvalue equation and the minimality have to hold for every potential and number of points.", "anchors": ["surface_potential_analysis/stacked_basis/potential_basis.py:get_potential_basis_config_basis", "surface_potential_analysis/stacked_basis/sho_basis.py:sho_basis_3d_from_config", "surface_potential_analysis/state_vector/eigenstate_calculation.py:get_eigenstate_basis_stacked_from_hamiltonian"]}
{"id": "C166", "title": "States of a basis and masses against the band as they are drawn", "statement": "plot_explicit_basis_states_x draws one line for each state of the basis, with the measured value of the state at each point of the axis against the distance from the first point; plot_explicit_basis_state_x draws the line of the state with the given index, which counts from the end if it is negative and raises if it is out of range. plot_wavepacket_transformed_energy_effective_mass_against_band draws the effective mass of each band against the band.", "quantifier": "all valid bases, lengths, measures and indices; for the masses all numbers of bands and odd numbers of samples of a free particle", "why_tests_cant": "That the line is the state has to hold for every kind of basis and number of points.", "anchors": ["surface_potential_analysis/basis/plot.py:plot_explicit_basis_states_x", "surface_potential_analysis/basis/plot.py:plot_explicit_basis_state_x", "surface_potential_analysis/wavepacket/plot.py:plot_wavepacket_transformed_energy_effective_mass_against_band"]}
{"id": "C167", "title": "Collapse operators of rank one in the diagonalised stochastic Schrodinger solver", "statement": "solve_stochastic_schrodinger_equation of diagonalized_stochastic_schrodinger gives the solver the state, the Hamiltonian, the times, and the amplitude, bra and ket of each collapse operator, and returns the trajectories one after the other; times which do not begin at zero raise.", "quantifier": "all states, Hamiltonians, times, lists of collapse operators and numbers of trajectories, and all solvers", "why_tests_cant": "A test with one solver and operator cannot show that no bra and ket ever reaches the solver.", "anchors": ["surface_potential_analysis/dynamics/diagonalized_stochastic_schrodinger/solve.py:solve_stochastic_schrodinger_equation"]}
{"id": "C168", "title": "Localisation with wannier90", "statement": "get_localization_operator_wannier90 and localize_wavepacket_wannier90 give wannier90 the lattice, the samples and the overlaps of the wavepackets (and the projections), and use the unitary matrices it finds for these: the localised wavepackets are the combinations of the bands with the elements of the matrices. get_localization_operator_wannier90_individual_bands gives the diagonal operator of the phases found for each band alone. Symmetry operations raise.", "quantifier": "all wavepackets on at most three axes, of any valid bases, numbers of bands and samples, lattices, options and ignored axes, and all results of wannier90", "why_tests_cant": "A test with one program output cannot show that the overlaps of every wavepacket survive the conversion to momentum states.", "anchors": ["surface_potential_analysis/wavepacket/localization/_wannier90.py:get_localization_operator_wannier90", "surface_potential_analysis/wavepacket/localization/_wannier90.py:localize_wavepacket_wannier90", "surface_potential_analysis/wavepacket/localization/_wannier90.py:get_localization_operator_wannier90_individual_bands"]}
{"id": "C169", "title": "Potentials read from files", "statement": "load_potential_grid_json and load_uneven_potential_json give the potential with the vectors of the file and the numbers of the file as its one dimensional data; rows of different lengths raise, as does a number of heights which is not that of the numbers along the third axis. mock_even_potential keeps the data, on a third axis of length one. plot_point_potential_location_xy draws each location once.", "quantifier": "all lists of numbers, vectors and heights", "why_tests_cant": "Whether the order of the numbers is kept has to hold for all shapes; a test with one axis of length one cannot see an exchange.", "anchors": ["surface_potential_analysis/potential/potential.py:load_potential_grid_json", "surface_potential_analysis/potential/potential.py:load_uneven_potential_json", "surface_potential_analysis/potential/potential.py:mock_even_potential", "surface_potential_analysis/potential/plot_point_potential.py:plot_point_potential_location_xy"]}
{"id": "C170", "title": "Slices along one axis", "statement": "Indexing an array with slice_along_axis(s, axis) applies the slice or integer s to the given axis, counted from the end if negative, and keeps everything along all other axes; None inserts an axis with this number; an axis which the array does not have raises. The slices the package uses with it take the evenly spaced points from the offset, and the mirror images of the points of a periodic grid.", "quantifier": "all shapes, axes (of both signs), slices with any start, stop and step, and integers", "why_tests_cant": "The two ways of naming an axis go through different branches (padding before, and an ellipsis with padding behind), which agree only if the number of whole slices is right for every number of dimensions.", "anchors": ["surface_potential_analysis/util/util.py:slice_along_axis"]}
{"id": "C171", "title": "Coordinates of points projected along axes", "statement": "The points of a basis, and its wave vectors, projected along some of its axes have one coordinate for each axis, and points which differ only along these axes are as far from each other as their coordinates. get_x_coordinates_in_axes and get_k_coordinates_in_axes give these coordinates for the points of a slice, one row for each axis, whatever the basis.", "quantifier": "all lattices, shapes, fundamental shapes, axes in any order, and slices", "why_tests_cant": "The points have the fundamental shape but are reshaped to the shape of the basis, with a free number of rows: whether this raises, or silently gives a wrong number of rows, depends on divisibility.", "anchors": ["surface_potential_analysis/stacked_basis/util.py:get_fundamental_stacked_x_points_projected_along_axes", "surface_potential_analysis/stacked_basis/util.py:get_fundamental_stacked_k_points_projected_along_axes", "surface_potential_analysis/stacked_basis/util.py:get_x_coordinates_in_axes", "surface_potential_analysis/stacked_basis/util.py:get_k_coordinates_in_axes"]}
