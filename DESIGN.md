# Design of the formal model

Source: `/repo/surface_potential_analysis` (python, numpy). Model: Lean 4 (`/verif/lean/Verif`), with Mathlib.

## Layout

* `Verif/Model/*.lean`  – the code, function by function, each definition citing file and lines.
* `Verif/Lemmas/*.lean` – helper lemmas used by the proofs only.
* `Verif/Spec/*.lean`   – small independent specifications used by theorem statements.
* `Verif/Props/*.lean`  – the property theorems (`C01_...`), each with `example`s showing its hypotheses are met.

## Representation decisions

* Floats are idealised as ℝ and complex128 as ℂ (no rounding, no overflow, no NaN).
* `np.fft.fft / ifft` are written as their defining finite sums, with `norm="ortho"` or `"forward"`.
* A 1-D array is a function `ℕ → α` together with an explicit length `n`; sums are over `Finset.range n`
  and equalities are stated for all indices `< n`. Values outside the length carry no meaning.
* An n-D array is a function of a multi-index `List ℕ` together with a shape `List ℕ`
  (C order: `ravel (n::ns) (i::is) = i * prod ns + ravel ns is`).
* Python `//` and `%` with a positive divisor are Lean `Int` `/` and `%`
  (both floor for positive divisors).
* Square matrices at the linear algebra level are `Matrix (Fin n) (Fin n) ℂ`.
* Raising python code is modelled by `Option`/`Except` values when the property is about the error.
* `np.linalg.eigh`, `eig`, `svd` and `argsort` are parameters constrained by their mathematical contract
  (hypotheses in the theorem); `inv` and `solve` are the inverse matrix. `Chebyshev.fit` is a parameter which returns a least squares
  solution; `scipy.interpolate` splines are parameters; `curve_fit` and `fsolve` are parameters (least squares within the bounds where
  they exist; a root). The hypotheses are always witnessed by an example.
* `scipy.integrate.quad` is the interval integral; `scipy.special.eval_hermite` is the three term recurrence; `np.unwrap` is its documented
  algorithm. Physical constants (`hbar`, Boltzmann) are parameters.
* Random numbers are weights with prescribed second moments, expectations are finite weighted sums.
* The Rust extension `hamiltonian_generator` is modelled with the wrapping integer arithmetic of the release build and with its cache.
* Files: a path is missing, complete or torn (the writer was interrupted); programs are histories of calls with arbitrary crash points.
  Effects of `timed` are a state with a clock and the printed lines.
* Exceptions are `none`. Where python raises for every input, the model returns `none` for every input and a theorem says so.
* A basis is an inductive type (`Model/Basis`): fundamental, truncated, transformed, evenly spaced, explicit, tuple. The python test
  `basis == basis` is a parameter `same` which is only assumed to be sound.

## Trusted base

* Lean's kernel (4.33.0) and the axioms `propext`, `Classical.choice`, `Quot.sound` only.
* The reading of the python code as the definitions in `Verif/Model` (each cites its lines).
* The numpy semantics written in the model (slices, roll, ifftshift, ravel_multi_index, fft sums, tensordot).
* /repo was read as text. Once, by mistake, a python command was started inside /repo/surface_potential_analysis, where the
  package `operator` shadows the standard library: `operator/__init__.py` and `operator/operator.py` were imported until an
  ImportError. Nothing in this model comes from that run; the two bytecode files it left were removed.

## Plan per property

Index and grids

* C01, C02: model the two slices of `pad_ft_points` per axis literally (start slice, negative end slice), prove
  by cases on parities with `omega` that slot j of the new array holds the coefficient with the same centred label.
* C03: `nk_points` = ifftshift of arange; prove congruence + range, uniqueness of centred residues.
* C04: recursion on the shape list; induction on number of axes; modes as functions to `Option`.
* C05: Int arithmetic. C06: matrices over ℝ with an inverse, `x - L*floor` model of np.mod.
* C07: list insertion (`slice_ignoring_axes`) + argsort∘argsort as rank; induction on the sorted list of axes.
* C08: cumulative sums by induction; negation for the k version with concrete witness.

Bases

* C09: DFT orthogonality from Mathlib roots of unity; ortho normalisation.
* C10–C12, C14, C17: an inductive type of bases, conversion functions by class; central lemma: each basis is an
  isometry into the fundamental space whose adjoint is the projection.
* C13: roll/stride arithmetic. C15: tensors by induction on axes. C16: orthonormal families.
* C18: byte reinterpretation model of `.view(complex128)`; negation witness for real data.

Interpolation

* C19, C20: pad + DFT sums; geometric sums over the refined grid.

Geometry

* C21: `2π (A⁻¹)ᵀ`. C22: step function with decreasing norm; termination by finiteness not needed for each step.
* C23: inner products. C24: exact rational angle model.

States and operators

* C25–C31: matrices and sums; eigensolver contract as hypothesis; defaults of axes as counterexample theorems.

Dynamics

* C32, C33: derivative of Σ c_k e^{-iE_k t/ħ} v_k; unitarity. C34–C37: rate matrices, Gershgorin argument,
  exponentials. C38: permutations. C39: bijection of band storage. C40, C41: scaling identities + negations.
* C42: closed form algebra with square roots; the spec is the two-site rate equation. C43: exponentials. C44: triangle inequality.
  C84, C85: exact formula + negation. C86: algebra of the two branches, linearity of the interval integral. C87: inverse of the
  eigenvector matrix + negation.

Wavepackets

* C45–C48, C54: index bijections by centred residues (Lemmas/Unfurl). The list basis of a wavepacket is the fundamental transformed
  basis (what the constructors and unfurling convert it to); the basis of the Bloch states is any valid basis with orthonormal
  explicit parts. The Bloch state is specified on the points of the large cell (`Spec.blochWave`). C48: kernels of the two
  conversions; negation for truncated bases. C49: as C45. C50, C51, C88, C89: matrices per sample, the
  singular value decomposition is a parameter with the contract `Svd.IsDecomposition`; C88, C89: partial + negation. C52: phase sums, negation
  for truncated bases. C53: unit phases at an arbitrary integer point; negations of the two siblings at the level of array shapes.
  C90, C91: partial + negation.

Kernels

* C55–C65: full, diagonal and isotropic kernels and their noise operators as finite sums. C56, C61, C62: eigensolver contract, positive
  semidefiniteness, truncation by sorted lists. C57–C59: Fourier operators of an isotropic kernel by phase sums; Taylor operators with fitted
  coefficients (least squares contract) and explicit polynomials. C60: product kernels. C63: operator algebra. C64: the periodic
  displacement and the closed forms of the gaussian and lorentzian kernels. C65: the second moments of the weights are hypotheses.

Potential, Hamiltonian, overlap, util

* C66–C68: real functions, undersampling and reciprocal potential. C69–C72: Hermiticity and alias sums of the momentum basis hamiltonians,
  the generator with its cache (invariant: every cached value is the value of the function at its key), Hermite functions as derivatives.
  C92: the generator. C93, C95: oscillator states. C94: explicit z hamiltonian. C96: Bloch's theorem of the generator. C97: the minimum.
  `hamiltonian_builder/sho_subtracted_basis.py` calls `infinate_sho_basis_3d_from_config` with a positional argument for a keyword-only
  parameter and therefore raises a `TypeError` for all arguments.
* C73: injectivity of string formatting (split at underscores). C74, C100: finite sums and index arithmetic. C75: phases of congruent
  points, lists sorted by weight. C99: phase sums against the interval integral of a trigonometric polynomial.
* C171: distances by C28_projection_isometry, as the rows of an invertible matrix are independent; the reshape by arithmetic of quotients and remainders.
* C170: basic indexing of numpy as a recursion over the axes; whole slices before an index and behind it by induction, so that both branches of slice_along_axis give the same index.
* C169: entries of nested lists; the claim of one dimensional data is false.
* C168: the conversion of each axis to all plane waves, or none, keeps every state (induction over the axes), so that C121, C122 and C123 apply to the wavepackets themselves.
* C166: the kernel of the conversion to the points of a valid basis, and C135 for the masses.
* C167: induction over the collapse operators for the arguments, and over the trajectories for the data; the claim is false with collapse operators.
* C165: entries of the one dimensional hamiltonian (C94), the contract of `eigh`, and the quadratic form in the eigenbasis (C136).
* C164: entries from C94; plane waves of wave number `freq r j` on `r * s` points sampled at every `s`-th point are those on `r` points.
* C161: frames read as slices (C07), positions from C126 and C143.
* C162, C163: slices and lines from C126 for the position and momentum bases; the negation evaluates two plane waves.
* C160: the values drawn are those of C42; order statistics from the contract of argsort.
* C159: C104 for the positions, C101 to C103 for the averages of one trajectory, C129 for the average over trajectories, C106 for the momenta and widths.
* C158: entries of reshaped and rolled arrays; C17 and C120 for the change of basis, C126 for the lines.
* C157: bases as trees, basis[i] as an Option; C36 and C44 for the occupations.
* C156: np.histogram from its documentation; counts are cardinalities of the sets of values in the bins; Chebyshev's inequality for the outliers.
* C155: the converted operator by C17, its diagonal drawn by C126/C154; the diagonal as a vector of the fundamental basis.
* C154: frames as the list of the slices of C126 for the converted rows; the converted rows expand to the same functions.
* C153: slices with a leading axis as columns, planes of the grid by their index, Bragg labels and the decrement of C22.
* C152: argmax over the large cell, Bloch states have the modulus of their periodic part, wrapping as in C05.
* C151: elements of the compiled generator through C92 and C93; wave vectors in the surface by solving for the dual lattice.
* C150: site indices as rounded-down fractions of the number of points; drawn values through the conversions of C147 and the slices of C126 and C07; the lines of a point potential are the fibres of the map from points to locations.
* C149: matrix elements of a converted diagonal operator (as in C106 for expectations); the eigenvalues as means of the position over the squared moduli of a combination.
* C148: the conversion of the projection to the momentum basis keeps its function (C147), so C117, C119 and C50 apply; the overlap of the first sample with its own cut-off is already positive.
* C147: both bases are complete (as many orthonormal states as points), so the function is kept; the entries by the conversion formula of C10.
* C145, C146: the entry formula of converted matrices with the expansion in orthonormal states; the moments of the random factors; the wrapping lemmas of C64 axis by axis.
* C144: a sum of squares which can be zero is zero at the minimum; the jump model has one solution (Picard-Lindelof uniqueness), hence the exchange of the sites; the equations for the rates become sum and product of the rates.
* C143: the sums of Bloch waves from C45, C47, C48; slices from C126, differences and paths from C137; directions of the projection do not depend on the lengths of the vectors.
* C142: from C91 (the entries of the Hamiltonian) and C135 (the component of the energies and its limit).
* C141: the vectors and sizes of the axes are lists; zip and map. The mirror image by linear algebra; the fractions by arithmetic of remainders.
* C140: from C63, C64 and C120; the correction commutes with the conversion since the states of the basis are orthonormal.
* C138-C139: C138 from the slices of C126 for the large cell, whose reciprocal vectors are the fractions of those of the unit cell; C139 from uniqueness in C32.
* C136-C137: C136 by the spectral decomposition (C26) and completeness of the basis, bands from C48; C137 from the slices of C126 and the distances of C08.
* C134-C135: C134 from the decompositions of C56 and the truncation of C62 (sorted sums are least), samples from C65; C135 by summing |k| and k^2 against roots of unity in closed form.
* C132-C133: C132 by summing over the list of operators with the hops as a bijection (C38), C133 from the sums over axes of C30 and C76.
* C128-C131: the arrays given to matplotlib; C128 by the order-independence of sums, C129 from the DFT lemmas with roll as a bijection, C130 by induction on the bins, C131 from C04 and C08.
* C125-C127: the arrays given to matplotlib. C126 from C07 (slices), C10 (conversion) and the position of each wave number after fftshift; C127 by induction on the data.
* C121-C124: files as lists of numbers. C121 from the shift theorem for each axis (a moved index is a phase) and Parseval; C122 from the position of every number in the file; C123 from C50 and C90; C124 by the wrapped index of each axis.
* C120: the kernel of converted operators is the converted kernel of the operators (sums are exchanged), and the operators of a Hermitian kernel reproduce it (C56).
* C117-C119: the 1 x 1 decomposition is a phase; triangle inequality for the largest value; floor of fractions is strictly increasing; closest displacements for the gaussian.
* C116: the Fourier interpolation of C20 in the plane, then the contract of the spline; the memory layout of the reshaped array decides between view and copy.
* C113-C115: loops of the initial states unrolled; geometric sums for orthogonality; the translation acts on each plane wave.
* C111: completeness of orthonormal Bloch states, with C110 and C48. C112: index sets of wrapped indices compared with the cell around the origin,
  the modulus of a Bloch state has the period of the unit cell.
* C107, C108, C109: sorted eigendecomposition as a contract, index arithmetic of flattened lists. C110: matrix elements between Bloch states
  through the momentum components, energies compared through the defining equation of the wave vector.
* C101, C102, C103: sums over pairs of times. C104, C105, C106: expectation of diagonal operators through the conversion kernel, equality
  in the triangle inequality.
* C77, C98: transition system with a file store, crash points and arbitrary histories; invariant by induction over histories. C78: world with
  a clock and a log. C79: real functions. C80: unwrap by induction.

## Coverage

Functions of `/repo/surface_potential_analysis` whose lines are cited by a definition in `Verif/Model` and functions which are not modelled. Methods which only
store arguments or forward to a modelled function are listed as not modelled. Files which only draw figures are left out except where listed.

* `_variance_test.py`
  * not modelled: `b`, `c`, `d`, `e`, `b_inv`, `b_cov`, `b_con`, `c_inv`, `c_cov`, `c_con`, `d_inv`, `d_cov`, `d_con`, `e_inv`, `e_cov`, `e_con`
* `basis/basis.py`
  * modelled: `FundamentalBasis.__init__`, `FundamentalBasis.n`, `FundamentalBasis.fundamental_n`, `FundamentalBasis.__as_fundamental__`, `FundamentalBasis.__from_fundamental__`, `TruncatedBasis.__init__`, `TruncatedBasis.n`, `TruncatedBasis.fundamental_n`, `TruncatedBasis.__as_fundamental__`, `TruncatedBasis.__from_fundamental__`, `TransformedBasis.__init__`, `TransformedBasis.n`, `TransformedBasis.fundamental_n`, `TransformedBasis.__as_transformed__`, `TransformedBasis.__from_transformed__`, `FundamentalTransformedBasis.__init__`, `FundamentalTransformedBasis.__as_transformed__`, `FundamentalTransformedBasis.__from_transformed__`
  * not modelled: `FundamentalPositionBasis.__init__`, `FundamentalPositionBasis.delta_x`, `TruncatedPositionBasis.__init__`, `TruncatedPositionBasis.delta_x`, `TransformedPositionBasis.__init__`, `TransformedPositionBasis.delta_x`, `FundamentalTransformedPositionBasis.__init__`
* `basis/basis_like.py`
  * modelled: `AsFundamentalBasis.__into_fundamental__`, `AsFundamentalBasis.__into_transformed__`, `AsTransformedBasis.__into_fundamental__`, `BasisLike.__repr__`, `BasisLike.n`, `BasisLike.fundamental_n`, `BasisLike.__into_fundamental__`, `BasisLike.__into_transformed__`, `BasisLike.__from_fundamental__`, `BasisLike.__from_transformed__`, `BasisLike.__convert_vector_into__`, `convert_vector`, `convert_dual_vector`, `convert_matrix`, `BasisWithLengthLike.__repr__`, `BasisWithLengthLike.delta_x`
  * not modelled: `FromFundamentalBasis.__from_fundamental__`, `FromTransformedBasis.__from_transformed__`, `IntoFundamentalBasis.__into_fundamental__`, `IntoTransformedBasis.__into_transformed__`, `AsFundamentalBasis.__as_fundamental__`, `AsTransformedBasis.__as_transformed__`, `AsTransformedBasis.__into_transformed__`
* `basis/block_fraction_basis.py`
  * modelled: `BasisWithBlockFractionLike.ndim`, `ExplicitBlockFractionBasis.__init__`, `EvenlySpacedBlockFractionBasis.bloch_fractions`
  * not modelled: `BasisWithBlockFractionLike.bloch_fractions`, `ExplicitBlockFractionBasis.bloch_fractions`, `EvenlySpacedBlockFractionBasis.__init__`, `FundamentalBlockFractionBasis.__init__`
* `basis/conversion.py`
  * modelled: `basis_as_fundamental_position_basis`, `basis_as_fundamental_momentum_basis`, `basis_as_fundamental_transformed_basis`, `basis_as_fundamental_basis`, `basis_as_n_point_basis`, `basis_as_single_point_basis`
* `basis/evenly_spaced_basis.py`
  * modelled: `_pad_sample_axis`, `_truncate_sample_axis`, `EvenlySpacedBasis.__init__`, `EvenlySpacedBasis.n`, `EvenlySpacedBasis.fundamental_n`, `EvenlySpacedBasis.step`, `EvenlySpacedBasis.offset`, `EvenlySpacedBasis.__as_fundamental__`, `EvenlySpacedBasis.__from_fundamental__`, `EvenlySpacedTransformedBasis.__init__`, `EvenlySpacedTransformedBasis.n`, `EvenlySpacedTransformedBasis.fundamental_n`, `EvenlySpacedTransformedBasis.step`, `EvenlySpacedTransformedBasis.offset`, `EvenlySpacedTransformedBasis.__as_transformed__`, `EvenlySpacedTransformedBasis.__from_transformed__`
  * not modelled: `EvenlySpacedTransformedPositionBasis.__init__`, `EvenlySpacedTransformedPositionBasis.delta_x`
* `basis/explicit_basis.py`
  * modelled: `ExplicitBasis.__init__`, `ExplicitBasis.vectors_basis`, `ExplicitBasis.n`, `ExplicitBasis.fundamental_n`, `ExplicitBasis.vectors`, `ExplicitBasis._raw_vectors`, `ExplicitBasis.fundamental_raw_vectors`, `ExplicitBasis.from_state_vectors`, `ExplicitBasis.from_basis`, `ExplicitBasis.__from_state_basis__`, `ExplicitBasis.__into_state_basis__`, `ExplicitBasis.__from_fundamental__`, `ExplicitBasis.__into_fundamental__`, `ExplicitBasis.__from_transformed__`, `ExplicitBasis.__into_transformed__`, `ExplicitBasisWithLength.__init__`, `ExplicitBasisWithLength.delta_x`, `ExplicitBasisWithLength.from_state_vectors`, `ExplicitBasisWithLength.from_basis`, `ExplicitStackedBasisWithLength.__init__`, `ExplicitStackedBasisWithLength.delta_x_stacked`, `ExplicitStackedBasisWithLength.shape`, `ExplicitStackedBasisWithLength.fundamental_shape`, `ExplicitStackedBasisWithLength.from_state_vectors`, `ExplicitStackedBasisWithLength.from_basis`
* `basis/momentum_basis_like.py`
  * modelled: `MomentumBasis.__init__`, `MomentumBasis.k_points`
* `basis/plot.py`
  * modelled: `plot_explicit_basis_states_x`, `plot_explicit_basis_state_x`
* `basis/stacked_basis.py`
  * modelled: `StackedBasisLike.n`, `StackedBasisLike.fundamental_n`, `StackedBasisLike.shape`, `StackedBasisLike.fundamental_shape`, `TupleBasisLike.shape`, `TupleBasisLike.fundamental_shape`, `TupleBasisWithLengthLike.delta_x_stacked`, `_convert_tuple_basis_vector`, `TupleBasis.__init__`, `TupleBasis.__from_fundamental__`, `TupleBasis.__into_fundamental__`, `TupleBasis.__into_transformed__`, `TupleBasis.__from_transformed__`, `TupleBasis.__convert_vector_into__`, `TupleBasis.__iter__`, `TupleBasis.__getitem__`
  * not modelled: `StackedBasisLike.ndim`, `StackedBasisWithVolumeLike.ndim`, `StackedBasisWithVolumeLike.n`, `StackedBasisWithVolumeLike.fundamental_n`, `StackedBasisWithVolumeLike.shape`, `StackedBasisWithVolumeLike.fundamental_shape`, `StackedBasisWithVolumeLike.delta_x_stacked`, `TupleBasisLike.__repr__`, `TupleBasisLike.__iter__`, `TupleBasisWithLengthLike.__iter__`
* `basis/time_basis_like.py`
  * modelled: `EvenlySpacedTimeBasis.__init__`, `EvenlySpacedTimeBasis.times`, `EvenlySpacedTimeBasis.fundamental_times`, `EvenlySpacedTimeBasis.dt`, `EvenlySpacedTimeBasis.fundamental_dt`, `EvenlySpacedTimeBasis.nt_points`, `ExplicitTimeBasis.__init__`, `ExplicitTimeBasis.times`, `ExplicitTimeBasis.fundamental_times`
  * not modelled: `BasisWithTimeLike.times`, `BasisWithTimeLike.fundamental_times`, `BasisWithTimeLike.delta_t`, `BasisWithTimeLike.__hash__`, `EvenlySpacedTimeBasis.delta_t`, `EvenlySpacedTimeBasis.__hash__`, `FundamentalTimeBasis.__init__`
* `basis/util.py`
  * modelled: `BasisUtil.vectors`, `BasisUtil.nk_points`, `BasisUtil.fundamental_nk_points`, `BasisUtil.dx`, `BasisUtil.fundamental_x_points`, `BasisUtil.stacked_nk_points`, `BasisUtil.stacked_nx_points`, `BasisUtil.get_flat_index`, `BasisUtil.get_stacked_index`, `BasisUtil.volume`, `BasisUtil.reciprocal_volume`, `BasisUtil.get_k_points_at_index`, `BasisUtil.fundamental_stacked_k_points`, `BasisUtil.get_x_points_at_index`, `BasisUtil.x_points_stacked`, `BasisUtil.fundamental_x_points_stacked`, `BasisUtil.dx_stacked`, `BasisUtil.delta_k_stacked`, `BasisUtil.dk_stacked`, `_get_average_angles`, `get_twice_average_nx`
  * not modelled: `BasisUtil.__init__`, `BasisUtil.n`, `BasisUtil.fundamental_n`, `BasisUtil.__into_fundamental__`, `BasisUtil.__from_fundamental__`, `BasisUtil.nx_points`, `BasisUtil.fundamental_nx_points`, `BasisUtil.delta_x`, `BasisUtil.fundamental_dx`, `BasisUtil.x_points`, `BasisUtil.__iter__`, `BasisUtil.shape`, `BasisUtil.ndim`, `BasisUtil.fundamental_shape`, `BasisUtil.fundamental_stacked_nk_points`, `BasisUtil.fundamental_stacked_nx_points`, `BasisUtil.__getitem__`, `BasisUtil.k_points`, `BasisUtil.delta_x_stacked`, `BasisUtil.fundamental_delta_x_stacked`, `BasisUtil.fundamental_dx_stacked`, `BasisUtil.fundamental_delta_k_stacked`, `BasisUtil.fundamental_dk_stacked`
* `dynamics/diagonalized_stochastic_schrodinger/solve.py`
  * modelled: `solve_stochastic_schrodinger_equation`
* `dynamics/hermitian_gamma_integral.py`
  * modelled: `_get_delta_e`, `_get_fermi_occupation`, `get_hermitian_gamma_occupation_integrand`, `calculate_hermitian_gamma_occupation_integral`, `_calculate_real_gamma_prefactor`, `_get_coulomb_potential`, `_get_hopping_potential_integrand`, `calculate_hermitian_gamma_potential_integral`, `calculate_real_gamma_integral`
  * not modelled: `_complex_quad`
* `dynamics/incoherent_propagation/eigenstates.py`
  * modelled: `calculate_tunnelling_eigenstates`, `get_operator_state_vector_decomposition`, `get_equilibrium_state`, `calculate_equilibrium_state`, `get_tunnelling_simulation_state`, `calculate_tunnelling_simulation_state`
* `dynamics/incoherent_propagation/isf.py`
  * modelled: `calculate_isf_at_times`, `calculate_equilibrium_state_averaged_isf`, `calculate_equilibrium_initial_state_isf`, `get_rate_decomposition`
* `dynamics/incoherent_propagation/plot.py`
  * modelled: `plot_rate_decomposition_against_temperature`
* `dynamics/incoherent_propagation/tunnelling_matrix.py`
  * modelled: `get_jump_matrix_from_a_matrix`, `get_a_matrix_from_jump_matrix`, `resample_tunnelling_a_matrix`, `get_jump_matrix_from_function`, `get_a_matrix_reduced_bands`, `get_tunnelling_m_matrix`, `get_initial_pure_density_matrix_for_basis`, `density_matrix_as_probability`, `density_matrix_list_as_probabilities`
* `dynamics/isf.py`
  * modelled: `_get_location_offsets_per_band`, `_calculate_approximate_locations`, `calculate_isf_approximate_locations`, `get_isf_from_4_variable_fit`, `fit_isf_to_double_exponential`, `extract_fey_rate_from_4_variables_fit_112bar`, `calculate_isf_fey_4_variable_model_110`, `get_isf_from_fey_4_variable_model_110`, `fit_isf_to_fey_4_variable_model_110_fixed_ratio`, `fit_isf_to_fey_4_variable_model_110`, `calculate_isf_fey_model_110`, `calculate_isf_fey_model_112bar`, `get_isf_from_fey_model_fit_110`, `get_isf_from_fey_model_fit_112bar`, `fit_isf_to_fey_model_110`, `fit_isf_to_fey_model_112bar`
* `dynamics/isf_plot.py`
  * modelled: `plot_isf_against_time`, `plot_average_isf_against_time`, `plot_isf_4_variable_fit_against_time`, `plot_isf_fey_4_variable_fit_against_time`, `plot_isf_fey_model_fit_112bar_against_time`, `plot_isf_fey_model_fit_110_against_time`
* `dynamics/plot.py`
  * modelled: `plot_probability_per_band`, `plot_average_probability_per_band`, `plot_probability_per_site`
* `dynamics/schrodinger/solve.py`
  * modelled: `get_state_vector_decomposition`, `solve_schrodinger_equation_decomposition`, `solve_schrodinger_equation_diagonal`, `solve_schrodinger_equation`
* `dynamics/stochastic_schrodinger/solve.py`
  * modelled: `get_collapse_operators_from_a_matrix`, `get_simplified_collapse_operators_from_a_matrix`, `get_collapse_operators_from_function`, `solve_stochastic_schrodinger_equation`, `solve_stochastic_schrodinger_equation_rust`, `_get_operator_diagonals`, `_get_banded_operator`, `solve_stochastic_schrodinger_equation_rust_banded`, `_select_random_localized_state`, `solve_stochastic_schrodinger_equation_localized`
  * not modelled: `_get_banded_operators`
* `dynamics/tunnelling_basis.py`
  * modelled: `TunnellingSimulationBandsBasis.__init__`, `TunnellingSimulationBandsBasis.from_wavepackets`, `get_basis_from_shape`
* `dynamics/util.py`
  * modelled: `get_hop_shift`, `build_hop_operator`
* `hamiltonian_builder/explicit_z_basis.py`
  * modelled: `_get_xy_hamiltonian`, `_SurfaceHamiltonianUtil.__init__`, `_SurfaceHamiltonianUtil.basis`, `_SurfaceHamiltonianUtil.bloch_z_hamiltonian`, `_SurfaceHamiltonianUtil.subtracted_points`, `_SurfaceHamiltonianUtil.get_ft_potential`, `total_surface_hamiltonian`, `total_surface_hamiltonian_as_fundamental`
  * not modelled: `PotentialSizeError.__init__`, `_SurfaceHamiltonianUtil.points`, `_SurfaceHamiltonianUtil.hamiltonian`, `_SurfaceHamiltonianUtil._calculate_off_diagonal_energies`
* `hamiltonian_builder/momentum_basis.py`
  * modelled: `hamiltonian_from_potential`, `hamiltonian_from_mass`, `hamiltonian_from_mass_in_basis`, `total_surface_hamiltonian`
* `hamiltonian_builder/sho_subtracted_basis.py`
  * modelled: `_SurfaceHamiltonianUtil.__init__`, `_SurfaceHamiltonianUtil.points`, `_SurfaceHamiltonianUtil.z_offset`, `_SurfaceHamiltonianUtil.dz`, `_SurfaceHamiltonianUtil.z_distances`, `_SurfaceHamiltonianUtil.basis`, `_SurfaceHamiltonianUtil.hamiltonian`, `_SurfaceHamiltonianUtil.eigenstate_indexes`, `_SurfaceHamiltonianUtil._calculate_diagonal_energy`, `_SurfaceHamiltonianUtil.get_sho_potential`, `_SurfaceHamiltonianUtil.get_sho_subtracted_points`, `_SurfaceHamiltonianUtil.get_ft_potential`, `_SurfaceHamiltonianUtil._calculate_off_diagonal_energies_fast`, `total_surface_hamiltonian`
  * not modelled: `_SurfaceHamiltonianUtil.nx`, `_SurfaceHamiltonianUtil.ny`, `_SurfaceHamiltonianUtil.nz`, `_SurfaceHamiltonianUtil._calculate_off_diagonal_entry`, `_SurfaceHamiltonianUtil._calculate_off_diagonal_energies`
* `kernel/build.py`
  * modelled: `build_isotropic_kernel_from_function`, `build_isotropic_kernel_from_function_stacked`, `build_axis_kernel_from_function_stacked`, `_get_temperature_corrected_operators`, `get_temperature_corrected_noise_operators`, `_get_temperature_corrected_diagonal_operators`, `get_temperature_corrected_diagonal_noise_operators`, `truncate_diagonal_noise_operator_list`, `truncate_noise_operator_list`, `truncate_noise_kernel`, `truncate_diagonal_noise_kernel`
* `kernel/conversion.py`
  * modelled: `convert_noise_operator_list_to_basis`, `convert_diagonal_noise_operator_list_to_basis`, `convert_kernel_to_basis`, `convert_diagonal_kernel_to_basis`, `convert_isotropic_kernel_to_basis`
* `kernel/gaussian.py`
  * modelled: `get_gaussian_isotropic_noise_kernel`, `get_gaussian_axis_noise_kernel`, `get_gaussian_noise_kernel`, `get_effective_gaussian_parameters`, `get_effective_gaussian_noise_kernel`, `get_effective_gaussian_isotropic_noise_kernel`, `get_gaussian_noise_operators_periodic`, `get_effective_gaussian_noise_operators_periodic`, `get_temperature_corrected_gaussian_noise_operators`, `get_temperature_corrected_effective_gaussian_noise_operators`, `_get_explicit_taylor_coefficients_gaussian`, `get_periodic_gaussian_operators_explicit_taylor`, `get_linear_gaussian_noise_operators_explicit_taylor`, `get_periodic_gaussian_operators_explicit_taylor_stacked`, `get_linear_gaussian_operators_explicit_taylor_stacked`
* `kernel/kernel.py`
  * modelled: `as_full_kernel_from_diagonal`, `as_diagonal_kernel_from_full`, `as_diagonal_kernel_from_isotropic`, `as_isotropic_kernel_from_diagonal`, `as_diagonal_kernel_from_isotropic_stacked`, `as_isotropic_kernel_from_diagonal_stacked`, `_outer_product`, `as_isotropic_kernel_from_axis`, `as_axis_kernel_from_isotropic`, `as_diagonal_noise_operators_from_full`, `as_noise_operators_from_diagonal`, `get_full_kernel_from_operators`, `get_diagonal_kernel_from_diagonal_operators`, `get_diagonal_kernel_from_operators`, `get_isotropic_kernel_from_diagonal_operators`, `get_isotropic_kernel_from_diagonal_operators_stacked`, `get_isotropic_kernel_from_operators`, `get_diagonal_noise_operators_from_axis`
* `kernel/lorentzian.py`
  * modelled: `get_effective_lorentzian_parameter`, `get_lorentzian_isotropic_noise_kernel`, `_get_explicit_taylor_coefficients_lorentzian`, `get_lorentzian_operators_explicit_taylor`
* `kernel/plot.py`
  * modelled: `plot_diagonal_kernel_2d`, `plot_kernel_2d`, `plot_kernel_sparsity`, `plot_kernel_truncation_error`, `plot_diagonal_kernel_truncation_error`, `plot_diagonal_noise_operators_single_sample`, `plot_noise_operators_single_sample_x`, `plot_noise_kernel_single_sample`, `plot_diagonal_noise_operators_eigenvalues`, `plot_isotropic_noise_kernel_1d_x`, `plot_isotropic_noise_kernel_2d_x`, `_get_noise_kernel_percentage_error`, `plot_isotropic_kernel_error_1d_x`, `plot_isotropic_kernel_error_1d`
* `kernel/sample.py`
  * modelled: `sample_noise_from_diagonal_operators_split`, `diagonal_operator_list_from_diagonal_split`, `get_diagonal_split_noise_components`, `sample_noise_from_diagonal_operators`, `sample_noise_from_operators`, `sample_noise_from_diagonal_kernel`
* `kernel/solve/_eigenvalue.py`
  * modelled: `get_periodic_noise_operators_eigenvalue`, `get_periodic_noise_operators_diagonal_eigenvalue`
* `kernel/solve/_fft.py`
  * modelled: `_assert_periodic_sample`, `_get_operators_for_isotropic_noise`, `_get_noise_eigenvalues_isotropic_fft`, `get_periodic_noise_operators_isotropic_fft`, `get_periodic_operators_for_real_isotropic_noise`, `get_periodic_noise_operators_real_isotropic_fft`, `_get_operators_for_isotropic_stacked_noise`, `_get_noise_eigenvalues_isotropic_stacked_fft`, `get_periodic_noise_operators_isotropic_stacked_fft`, `get_periodic_noise_operators_real_isotropic_stacked_fft`
* `kernel/solve/_taylor.py`
  * modelled: `_get_cos_coefficients_for_taylor_series`, `_get_periodic_coefficients_for_taylor_series`, `get_periodic_noise_operators_explicit_taylor_expansion`, `_get_linear_operators_for_noise`, `get_linear_noise_operators_explicit_taylor_expansion`, `get_periodic_noise_operators_real_isotropic_taylor_expansion`, `get_periodic_noise_operators_real_isotropic_stacked_taylor_expansion`
* `kernel/solve/_util.py`
  * modelled: `get_fundamental_axis_kernels_from_isotropic`
  * not modelled: `_convert_isotropic_kernel_to_basis`
* `operator/build.py`
  * modelled: `_wrap_displacements`, `get_displacements_x`, `_get_displacements_x_along_axis`, `get_displacements_x_stacked`, `get_displacements_matrix_nx_stacked`, `get_displacements_matrix_nx`, `get_displacements_matrix_x`, `_get_displacements_matrix_x_along_axis`, `get_displacements_matrix_x_stacked`, `get_total_displacements_matrix_x_stacked`
* `operator/conversion.py`
  * modelled: `convert_operator_to_basis`, `convert_diagonal_operator_to_basis`, `convert_operator_list_to_basis`, `convert_diagonal_operator_list_to_basis`
* `operator/operations.py`
  * modelled: `matmul_list_operator`, `matmul_operator_list`, `matmul_diagonal_list_operator`, `matmul_operator_diagonal_list`, `subtract_list_list`, `get_commutator_operator_list`, `get_commutator_diagonal_operator_list`, `add_list_list`, `scale_operator_list`, `scale_operator`, `apply_operator_to_states`, `get_commutator`, `get_anti_commutator`, `exp_operator`
* `operator/operator.py`
  * modelled: `as_operator`, `as_diagonal_operator`, `sum_diagonal_operator_over_axes`, `average_eigenvalues`, `average_eigenvalues_list`, `apply_function_to_operator`, `matmul_operator`, `add_operator`, `subtract_operator`, `apply_operator_to_state`
  * not modelled: `get_eigenvalue`
* `operator/operator_list.py`
  * modelled: `select_operator`, `select_diagonal_operator`, `diagonal_operator_list_as_full`, `operator_list_as_diagonal`, `operator_list_from_iter`, `operator_list_into_iter`, `as_flat_operator`, `as_diagonal_operator`
* `operator/plot.py`
  * modelled: `plot_operator_sparsity`, `_get_operator_diagonals`, `plot_operator_diagonal_sparsity`, `plot_eigenstate_occupations`, `plot_eigenvalues`, `plot_diagonal_operator_along_diagonal`, `animate_diagonal_operator_list_along_diagonal`, `plot_operator_along_diagonal`, `plot_operator_along_diagonal_1d_x`, `plot_diagonal_operator_along_diagonal_1d_x`, `plot_operator_along_diagonal_2d_x`, `plot_diagonal_operator_along_diagonal_2d_x`, `plot_operator_2d`, `plot_operator_2d_diagonal`
* `overlap/calculation.py`
  * modelled: `calculate_wavepacket_overlap`, `calculate_state_vector_list_overlap`, `calculate_wavepacket_list_overlap`
* `overlap/conversion.py`
  * modelled: `convert_overlap_to_basis`, `convert_overlap_to_momentum_basis`, `convert_overlap_to_position_basis`
* `overlap/interpolation.py`
  * modelled: `get_overlap_momentum_interpolator_k_fractions`, `get_overlap_momentum_interpolator`, `get_overlap_momentum_interpolator_flat`, `get_angle_averaged_diagonal_overlap_function`
* `overlap/overlap.py`
  * modelled: `get_single_overlap`, `get_overlap_cache_filename`
* `overlap/plot.py`
  * modelled: `plot_overlap_2d_x`, `plot_overlap_2d_k`, `plot_overlap_along_path_k`, `plot_overlap_along_k_diagonal`, `plot_overlap_along_k0`
* `potential/_comparison_points.py`
  * modelled: `get_111_comparison_points_x2`, `get_100_comparison_points_x2`
* `potential/conversion.py`
  * modelled: `convert_potential_to_basis`, `convert_potential_to_position_basis`, `get_continuous_potential`, `get_potential_derivative`
* `potential/plot.py`
  * modelled: `plot_potential_1d_x`, `plot_potential_1d_comparison`, `plot_potential_1d_x2_comparison_111`, `plot_potential_1d_x2_comparison_100`, `plot_potential_2d_x`, `plot_potential_difference_2d_x`, `animate_potential_3d_x`, `animate_potential_difference_3d_x`, `plot_potential_along_path`, `get_minimum_path`, `plot_potential_minimum_along_path`
* `potential/plot_point_potential.py`
  * modelled: `get_point_potential_xy_locations`, `plot_point_potential_location_xy`, `plot_point_potential_all_z`
* `potential/plot_uneven_potential.py`
  * modelled: `plot_uneven_potential_z`, `plot_uneven_potential_z_comparison`, `plot_uneven_potential_z_comparison_111`, `plot_uneven_potential_z_comparison_100`
* `potential/point_potential.py`
  * not modelled: `load_point_potential_json`
* `potential/potential.py`
  * modelled: `load_potential_grid_json`, `UnevenPotential3dZBasis.__init__`, `load_uneven_potential_json`, `normalize_potential`, `truncate_potential`, `undo_truncate_potential`, `interpolate_uneven_potential`, `mock_even_potential`
  * not modelled: `load_potential`, `load_uneven_potential`
* `probability_vector/conversion.py`
  * modelled: `convert_probability_vector_to_basis`, `convert_probability_vector_list_to_basis`, `convert_probability_vector_to_position_basis`, `convert_probability_vector_to_momentum_basis`
* `probability_vector/plot.py`
  * modelled: `plot_probability_against_time`, `plot_total_probability_against_time`, `plot_probability_1d_k`, `plot_probability_1d_x`, `plot_probability_2d_k`, `plot_probability_2d_x`
* `probability_vector/probability_vector.py`
  * modelled: `from_state_vector`, `from_state_vector_list`, `get_probability`, `get_probability_along_axis`, `sum_probability`, `sum_probabilities`, `average_probabilities`
* `stacked_basis/brillouin_zone.py`
  * modelled: `fold_point_in_bragg_plane`, `get_bragg_point_basis`, `get_all_brag_point_index`, `get_all_brag_point`, `get_bragg_plane_distance`, `_get_decrement_tolerance`, `decrement_brillouin_zone_3d`
  * not modelled: `decrement_brillouin_zone`
* `stacked_basis/build.py`
  * modelled: `position_basis_3d_from_parent`, `fundamental_stacked_basis_from_shape`, `fundamental_transformed_stacked_basis_from_shape`, `position_basis_from_shape`, `momentum_basis_3d_from_resolution`
  * not modelled: `position_basis_3d_from_shape`
* `stacked_basis/conversion.py`
  * modelled: `stacked_basis_as_fundamental_momentum_basis`, `stacked_basis_as_fundamental_position_basis`, `stacked_basis_as_fundamental_with_shape`
  * not modelled: `stacked_basis_as_fundamental_transformed_basis`, `stacked_basis_as_fundamental_basis`
* `stacked_basis/plot.py`
  * modelled: `plot_k_points_projected_2d`, `plot_brillouin_zone_points_projected_2d`, `plot_bragg_points_projected_2d`, `plot_fundamental_k_in_plane_projected_2d`, `plot_x_points_projected_2d`, `plot_fundamental_x_in_plane_projected_2d`, `plot_fundamental_x_at_index_projected_2d`
* `stacked_basis/potential_basis.py`
  * modelled: `get_potential_basis_config_eigenstates`, `get_potential_basis_config_basis`, `select_minimum_potential_3d`
* `stacked_basis/sho_basis.py`
  * modelled: `calculate_sho_wavefunction`, `calculate_x_distances`, `get_sho_potential_basis_config`, `sho_basis_3d_from_config`, `infinate_sho_basis_3d_from_config`
* `stacked_basis/util.py`
  * modelled: `project_k_points_along_axes`, `get_fundamental_stacked_k_points_projected_along_axes`, `get_k_coordinates_in_axes`, `project_x_points_along_axes`, `get_fundamental_stacked_x_points_projected_along_axes`, `get_x_coordinates_in_axes`, `_wrap_distance`, `_wrap_index`, `wrap_index_around_origin`, `wrap_x_point_around_origin`, `calculate_distances_along_path`, `calculate_cumulative_x_distances_along_path`, `calculate_cumulative_k_distances_along_path`, `get_x01_mirrored_index`, `get_single_point_basis`, `get_max_idx`
* `state_vector/conversion.py`
  * modelled: `convert_state_vector_to_basis`, `convert_state_vector_list_to_basis`, `convert_state_dual_vector_to_basis`, `convert_state_vector_to_position_basis`, `convert_state_vector_to_momentum_basis`, `convert_state_dual_vector_to_position_basis`, `convert_state_dual_vector_to_momentum_basis`, `interpolate_state_vector_momentum`
* `state_vector/eigenstate_calculation.py`
  * modelled: `calculate_eigenvectors_hermitian`, `calculate_eigenvectors`, `operator_from_eigenstates`, `calculate_expectation_diagonal`, `calculate_expectation`, `calculate_expectation_list`, `calculate_operator_inner_product`, `get_eigenstate_basis_from_hamiltonian`, `get_eigenstate_basis_stacked_from_hamiltonian`
* `state_vector/eigenstate_list.py`
  * modelled: `get_eigenvalues_list`
* `state_vector/eigenvalue_list_plot.py`
  * modelled: `plot_eigenvalue_against_time`, `plot_eigenstate_occupations`, `plot_eigenvalues`
* `state_vector/plot.py`
  * modelled: `plot_state_1d_k`, `plot_state_1d_x`, `animate_state_over_list_1d_x`, `animate_state_over_list_2d_k`, `animate_state_over_list_2d_x`, `animate_state_over_list_1d_k`, `plot_state_2d_k`, `plot_state_difference_2d_k`, `plot_state_2d_x`, `plot_state_difference_1d_k`, `plot_state_difference_2d_x`, `animate_state_3d_x`, `plot_state_along_path`, `_get_eigenstate_occupation`, `plot_all_eigenstate_occupations`, `animate_all_eigenstate_occupations`, `plot_eigenstate_occupation`, `plot_average_eigenstate_occupation`, `get_average_band_energy`, `plot_total_band_occupation_against_energy`, `get_periodic_x_operator`, `_get_periodic_x`, `_get_average_x_periodic`, `_get_restored_x`, `plot_periodic_averaged_occupation_1d_x`, `_get_x_operator`, `_get_average_x`, `plot_averaged_occupation_1d_x`, `_get_x_spread`, `get_coherent_coordinates`, `plot_spread_1d`, `plot_spread_distribution_1d`, `_get_k_operator`, `_get_average_k`, `plot_averaged_occupation_1d_k`, `plot_spread_against_k`, `plot_spread_against_x`, `plot_k_distribution_1d`, `plot_x_distribution_1d`, `plot_periodic_x_distribution_1d`, `_calculate_total_offsset_multiplications_real`, `_calculate_total_offsset_multiplications_complex`, `get_average_displacements`, `get_average_isf`, `get_average_normalized_drift`, `get_normalized_average_drift`, `plot_average_displacement_1d_x`, `plot_average_drift_1d_x`, `plot_average_isf_1d_x`
* `state_vector/plot_value_list.py`
  * modelled: `plot_value_list_against_nx`, `plot_value_list_against_time`, `plot_value_list_against_frequency`, `plot_split_value_list_against_time`, `plot_split_value_list_against_frequency`, `plot_all_value_list_against_time`, `plot_average_value_list_against_time`, `plot_value_list_distribution`, `plot_value_list_against_momentum`
* `state_vector/state_vector.py`
  * modelled: `as_vector`, `as_dual_vector`, `calculate_normalization`, `calculate_inner_product`
* `state_vector/state_vector_list.py`
  * modelled: `get_state_vector`, `get_weighted_state_vector`, `get_state_dual_vector`, `state_vector_list_into_iter`, `as_state_vector_list`, `calculate_inner_products`, `calculate_inner_products_elementwise`, `calculate_inner_products_eigenvalues`, `average_state_vector`, `get_basis_states`, `get_state_along_axis`
* `state_vector/state_vector_list_plot.py`
  * modelled: `plot_states_1d_x`, `plot_states_1d_k`
* `state_vector/util.py`
  * modelled: `get_single_point_state_vector_excact`, `get_single_point_state_vectors`, `get_most_localized_free_state_vectors`, `get_most_localized_state_vectors_from_probability`
* `util/decorators.py`
  * modelled: `timed`, `npy_cached`, `CachedFunction.call_uncached`, `CachedFunction.call_cached`, `CachedFunction._load_cache`, `CachedFunction.load_or_call_uncached`, `CachedFunction.load_or_call_cached`, `CachedFunction.__call__`
  * not modelled: `CachedFunction.__init__`, `CachedFunction._get_cache_path`, `cached`
* `util/interpolation.py`
  * modelled: `pad_ft_points`, `interpolate_points_fftn`, `pad_ft_points_real_axis`, `interpolate_points_rfftn`, `interpolate_points_rfft`, `interpolate_points_along_axis_spline`
* `util/plot.py`
  * modelled: `_get_default_lim`, `_get_lim`, `plot_data_1d`, `plot_data_1d_n`, `plot_data_1d_k`, `plot_data_1d_x`, `plot_data_2d`, `plot_data_2d_k`, `plot_data_2d_x`, `build_animation`, `animate_data_through_surface_x`, `animate_data_through_list_1d_n`, `animate_data_through_list_1d_x`, `animate_data_through_list_1d_k`, `animate_data_through_list_2d_k`, `animate_data_through_list_2d_x`
* `util/squared_scale.py`
  * modelled: `SquaredLocator.tick_values`, `_SquaredTransform.transform_non_affine`, `_InvertedSquaredTransform.transform_non_affine`
  * not modelled: `SquaredLocator.__call__`, `SquaredScale.__init__`, `SquaredScale.get_transform`, `SquaredScale.set_default_locators_and_formatters`, `_SquaredTransform.input_dims`, `_SquaredTransform.output_dims`, `_SquaredTransform.is_separable`, `_SquaredTransform.inverted`, `_InvertedSquaredTransform.input_dims`, `_InvertedSquaredTransform.output_dims`, `_InvertedSquaredTransform.is_separable`, `_InvertedSquaredTransform.inverted`
* `util/util.py`
  * modelled: `slice_along_axis`, `slice_ignoring_axes`, `get_position_in_sorted`, `get_data_in_axes`, `calculate_cumulative_distances_along_path`, `get_measured_data`
* `wavepacket/conversion.py`
  * modelled: `convert_wavepacket_to_basis`, `convert_wavepacket_with_eigenvalues_to_basis`, `convert_wavepacket_to_position_basis`, `convert_wavepacket_to_fundamental_momentum_basis`, `convert_wavepacket_to_shape`
* `wavepacket/eigenstate_conversion.py`
  * modelled: `_unfurl_momentum_basis_wavepacket`, `unfurl_wavepacket`, `unfurl_wavepacket_list`
* `wavepacket/get_eigenstate.py`
  * modelled: `_get_sampled_basis`, `get_wavepacket_state_vector`, `get_bloch_state_vector`, `get_all_eigenstates`, `get_all_wavepacket_states`, `get_tight_binding_state`, `get_tight_binding_states`, `get_states_at_bloch_idx`, `_get_compressed_bloch_states_at_bloch_idx`, `_get_fundamental_wavepacket_basis`, `get_fundamental_wavepacket`, `get_bloch_states`, `BlochBasis.__init__`, `BlochBasis.__from_fundamental__`, `BlochBasis.__into_fundamental__`, `BlochBasis.vectors_at_bloch_k`, `BlochBasis.basis_at_bloch_k`, `get_bloch_basis`, `get_bloch_hamiltonian`, `get_full_bloch_hamiltonian`, `get_wannier_states`, `get_wannier_basis`, `get_wannier_hamiltonian`, `get_full_wannier_hamiltonian`
  * not modelled: `BlochBasis._vectors`, `BlochBasis.vectors_basis`, `BlochBasis.unfurled_basis`, `BlochBasis.wavefunctions`
* `wavepacket/localization/_operator.py`
  * modelled: `_get_position_operator`, `_get_operator_between_states`, `_localize_operator`, `localize_position_operator`, `localize_position_operator_many_band`, `localize_position_operator_many_band_individual`
* `wavepacket/localization/_projection.py`
  * modelled: `get_state_projections_many_band`, `_get_orthogonal_projected_states_many_band`, `get_localization_operator_for_projections`, `localize_wavepacket_projection`, `localize_single_band_wavepacket_projection`, `get_localization_operator_tight_binding_projections`, `localize_tight_binding_projection`, `get_single_point_state_for_wavepacket`, `localize_single_point_projection`, `get_exponential_state`, `_get_exponential_decay_state`, `localize_exponential_decay_projection`, `get_gaussian_states`, `localize_wavepacket_gaussian_projection`, `get_evenly_spaced_points`
* `wavepacket/localization/_tight_binding.py`
  * modelled: `_get_global_phases`, `_get_bloch_wavefunction_phases`, `localize_tightly_bound_wavepacket_idx`, `get_wavepacket_two_points`, `_wrap_phases`, `localize_tightly_bound_wavepacket_two_point_max`, `localize_tightly_bound_wavepacket_max_point`
* `wavepacket/localization/_wannier90.py`
  * modelled: `_build_real_lattice_block`, `_build_k_points_block`, `_build_win_file`, `_get_offset_bloch_state`, `_build_mmn_file_block`, `_parse_nnk_points_file`, `_build_mmn_file`, `_build_amn_file`, `x0_symmetry_op`, `x0x1_symmetry_op`, `_get_fundamental_k_points`, `_build_dmn_file`, `_parse_u_mat_file_block`, `_get_localization_operator_from_u_mat_file`, `_write_setup_files_wannier90`, `_write_localization_files_wannier90`, `get_localization_operator_wannier90`, `localize_wavepacket_wannier90`, `get_localization_operator_wannier90_individual_bands`
  * not modelled: `_run_wannier90`, `_run_wannier90_in_container`
* `wavepacket/localization_operator.py`
  * modelled: `localization_operator_as_diagonal`, `diagonal_localization_operator_as_full`, `get_localized_wavepackets`, `get_localized_hamiltonian_from_eigenvalues`, `get_diagonal_localized_wavepackets`, `get_identity_operator`
* `wavepacket/plot.py`
  * modelled: `plot_wavepacket_sample_frequencies`, `plot_wavepacket_eigenvalues_2d_k`, `_get_projected_bloch_phases`, `plot_uneven_wavepacket_eigenvalues_1d_k`, `plot_wavepacket_eigenvalues_1d_k`, `plot_wavepacket_eigenvalues_1d_x`, `plot_wavepacket_transformed_energy_1d`, `_get_free_energy`, `get_wavepacket_transformed_energy_effective_mass`, `plot_wavepacket_transformed_energy_effective_mass_against_energy`, `plot_wavepacket_transformed_energy_effective_mass_against_band`, `get_wavepacket_localized_effective_mass`, `plot_wavepacket_localized_effective_mass_against_energy`, `plot_wavepacket_eigenvalues_2d_x`, `plot_eigenvalues_1d_x`, `plot_wavepacket_1d_x`, `plot_wavepacket_1d_k`, `plot_wavepacket_2d_k`, `plot_all_wavepacket_states_2d_k`, `plot_wavepacket_2d_x`, `plot_all_wavepacket_states_2d_x`, `plot_wavepacket_difference_2d_x`, `animate_wavepacket_3d_x`, `plot_wavepacket_along_path`, `get_wavepacket_band_occupation`, `plot_occupation_against_band`, `plot_occupation_against_band_average_energy`
* `wavepacket/wavepacket.py`
  * modelled: `get_fundamental_unfurled_sample_basis_momentum`, `get_fundamental_sample_basis`, `get_fundamental_unfurled_basis`, `get_wavepacket_sample_fractions`, `get_wavepacket_fundamental_sample_frequencies`, `generate_uneven_wavepacket`, `generate_wavepacket`, `get_wavepacket_basis`, `get_wavepacket`, `get_wavepacket_at_band`, `get_wavepackets`, `get_wavepackets_with_eigenvalues`, `as_wavepacket_list`, `wavepacket_list_into_iter`, `get_average_eigenvalues`
* `lib/hamiltonian_generator/src/lib.rs`
  * modelled: all functions except the python bindings
* `lib/sse_solver`
  * not modelled

## Mutation tests not run

* The theorems added for the last surviving edits (`C86_value`, `C120_diagonal_operators`, `C146_line`, `C64_effective_lorentzian`, `C58_lorentzian_series`,
  `C141_axis`) were proved, but the edits were not run again against them. The log lists them as tightened, not as failing.
* The definitions of `Model/SliceAlong.lean` (C170) and `Model/ProjectedPoints.lean` (C171) were not mutation-tested.
* A last batch of edits was cut short. Only the attempts which ran are in `seeded/LOG.jsonl`.
