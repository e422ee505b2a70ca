{
 "claims": [
  {
   "property": "C01",
   "status": "proved",
   "theorems": [
    "Verif.Transfer.c01_empty",
    "Verif.Transfer.c01_grid_length",
    "Verif.Transfer.c01_success_iff",
    "Verif.Transfer.c01_unsupported"
   ],
   "note": "Grid length, success condition and unsupported bound types of set_times, all inputs."
  },
  {
   "property": "C02",
   "status": "proved",
   "theorems": [
    "Verif.Transfer.c02_block_sum",
    "Verif.Transfer.c02_duration_preserved",
    "Verif.Transfer.c02_total_duration"
   ],
   "note": "Block sums and total durations over any field of characteristic 0 with positive oversampling."
  },
  {
   "property": "C03",
   "status": "proved",
   "theorems": [
    "Verif.Transfer.c03_absolute_roundtrip",
    "Verif.Transfer.c03_accepts_sorted",
    "Verif.Transfer.c03_rejects_unsorted"
   ],
   "note": "Over any linearly ordered field."
  },
  {
   "property": "C04",
   "status": "proved",
   "theorems": [
    "Verif.Transfer.c04_oversampling_rows",
    "Verif.Transfer.c04_wrong_rows"
   ],
   "note": "All pulses, oversamplings, bound types."
  },
  {
   "property": "C05",
   "status": "proved",
   "theorems": [
    "Verif.Transfer.c05_gradient_shape",
    "Verif.Transfer.c05_oversampling_adjoint"
   ],
   "note": "All pulses and gradients; gradient exists for every array with num_x rows."
  },
  {
   "property": "C06",
   "status": "proved",
   "theorems": [
    "Verif.Transfer.c06_affine",
    "Verif.Transfer.c06_calls_do_not_interfere",
    "Verif.Transfer.c06_channel_independent",
    "Verif.Transfer.c06_gradient_channel",
    "Verif.Transfer.c06_matrix_adjoint"
   ],
   "note": "Any tensor of the shape of the grid, any offset and cache state; calls and gradients may be interleaved. A matrix left over from another grid is the subject of C10."
  },
  {
   "property": "C07",
   "status": "proved",
   "theorems": [
    "Verif.Transfer.c07_same_call",
    "Verif.Transfer.c07_same_gradient"
   ],
   "note": "Same result or same error for every pulse and every gradient array."
  },
  {
   "property": "C08",
   "status": "proved",
   "theorems": [
    "Verif.Transfer.c08_adjoint",
    "Verif.Transfer.c08_associative",
    "Verif.Transfer.c08_call",
    "Verif.Transfer.c08_gradient",
    "Verif.Transfer.c08_grid",
    "Verif.Transfer.c08_wrong_rows"
   ],
   "note": "Arbitrarily nested transfer functions whose matrices fit their grids; associativity for parts that leave the constructor unused (fresh caches)."
  },
  {
   "property": "C09",
   "status": "proved",
   "theorems": [
    "Verif.Transfer.c09_adjoint",
    "Verif.Transfer.c09_call",
    "Verif.Transfer.c09_gradient",
    "Verif.Transfer.c09_independent"
   ],
   "note": "Arbitrarily nested parts whose matrices fit their grids."
  },
  {
   "property": "C10",
   "status": "partial",
   "theorems": [
    "Verif.Transfer.c10_no_matrix_partial",
    "Verif.Transfer.c10_oversampling_same_steps_partial",
    "Verif.Transfer.c10_unused_partial",
    "Verif.Transfer.c10_violated",
    "Verif.Transfer.c10_violated_error",
    "Verif.Transfer.c10_violated_one_step",
    "Verif.Transfer.c10_violated_silent"
   ],
   "note": "Proved for objects without a matrix cache, for unused matrix objects, and for OversamplingMTF when the step count is unchanged; violated for a used MatrixTF after a grid change (stale matrix: error, silently wrong pulse, or rows added up when the old grid had one step)."
  },
  {
   "property": "C11",
   "status": "partial",
   "theorems": [
    "Verif.Transfer.c11_rejects",
    "Verif.Transfer.c11_transfer_matrix_partial",
    "Verif.Transfer.c11_violated",
    "Verif.Transfer.c11_violated_witness"
   ],
   "note": "Violated: _transfer_matrix of a ConcatenateMTF stays None, so every call raises ValueError; the product matrix itself is proved to compose the parts."
  },
  {
   "property": "C12",
   "status": "partial",
   "theorems": [
    "Verif.Transfer.c12_concat_partial",
    "Verif.Transfer.c12_parallel_mtf_zero_offset_partial",
    "Verif.Transfer.c12_parallel_partial",
    "Verif.Transfer.c12_parallel_rejects",
    "Verif.Transfer.c12_violated_concat",
    "Verif.Transfer.c12_violated_parallel"
   ],
   "note": "Proved for ConcatenateTF and ParallelTF; violated for ParallelMTF (offsets dropped) and ConcatenateMTF (offset of the first part is not transferred)."
  },
  {
   "property": "C13",
   "status": "partial",
   "theorems": [
    "Verif.Transfer.c13_extension_partial",
    "Verif.Transfer.c13_gaussian_constant_partial",
    "Verif.Transfer.c13_gaussian_reflect_partial",
    "Verif.Transfer.c13_gaussian_wrap_partial",
    "Verif.Transfer.c13_nearest_short_partial",
    "Verif.Transfer.c13_reflect_symmetric_partial",
    "Verif.Transfer.c13_violated_asymmetric",
    "Verif.Transfer.c13_violated_gaussian",
    "Verif.Transfer.c13_violated_mirror",
    "Verif.Transfer.c13_violated_modes",
    "Verif.Transfer.c13_violated_nearest",
    "Verif.Transfer.c13_violated_odd"
   ],
   "note": "Proved for symmetric kernels with reflect borders (and short kernels with nearest borders), and for the Gaussian filter of even order with reflect, constant and wrap borders; violated for asymmetric kernels, for ConvolutionTF with constant, wrap and mirror borders, for the Gaussian filter with nearest and mirror borders, and for odd orders with every border."
  },
  {
   "property": "C14",
   "status": "proved",
   "theorems": [
    "Verif.Transfer.c14_bounded",
    "Verif.Transfer.c14_causal",
    "Verif.Transfer.c14_convex",
    "Verif.Transfer.c14_monotone",
    "Verif.Transfer.c14_padding"
   ],
   "note": "Real scalars; at least two time steps of any widths (the code uses the width of the first)."
  },
  {
   "property": "C15",
   "status": "proved",
   "theorems": [
    "Verif.Transfer.c15_matrix_classes",
    "Verif.Transfer.c15_matrix_no_times",
    "Verif.Transfer.c15_no_times",
    "Verif.Transfer.c15_precedence",
    "Verif.Transfer.c15_shape",
    "Verif.Transfer.c15_validation"
   ],
   "note": "All arrays, all nested objects except a bare IdentityTF, which does not validate."
  },
  {
   "property": "C16",
   "status": "proved",
   "theorems": [
    "Verif.Operator.c16_column_wise",
    "Verif.Operator.c16_rejects",
    "Verif.Operator.c16_square_of_vectorized",
    "Verif.Operator.c16_vectorized_of_square"
   ],
   "note": "All square arrays and all vectors whose length is a perfect square; other shapes raise."
  },
  {
   "property": "C17",
   "status": "proved",
   "theorems": [
    "Verif.Operator.c17_conjugation",
    "Verif.Operator.c17_dag",
    "Verif.Operator.c17_global_phase",
    "Verif.Operator.c17_identity",
    "Verif.Operator.c17_multiplicative"
   ],
   "note": "All square arrays over a commutative ring with conjugation."
  },
  {
   "property": "C18",
   "status": "partial",
   "theorems": [
    "Verif.Operator.c18_first_factor_partial",
    "Verif.Operator.c18_ket",
    "Verif.Operator.c18_linear_partial",
    "Verif.Operator.c18_order_independent",
    "Verif.Operator.c18_product_partial",
    "Verif.Operator.c18_rejects",
    "Verif.Operator.c18_second_factor_partial",
    "Verif.Operator.c18_trace_partial",
    "Verif.Operator.c18_violated",
    "Verif.Operator.c18_violated_one_dim"
   ],
   "note": "Proved for removing a proper non-empty set of subsystems from an operator of dimension above one, and for kets. Violated: removing nothing or everything raises TypeError, a 1x1 operator is treated as a ket."
  },
  {
   "property": "C19",
   "status": "proved",
   "theorems": [
    "Verif.Operator.c19_exponential",
    "Verif.Operator.c19_semigroup",
    "Verif.Operator.c19_unitary"
   ],
   "note": "Every skew-Hermitian matrix, every eigen-decomposition allowed by the contract of eigh."
  },
  {
   "property": "C20",
   "status": "partial",
   "theorems": [
    "Verif.Operator.c20_normal_partial",
    "Verif.Operator.c20_violated",
    "Verif.Operator.c20_violated_witness"
   ],
   "note": "Proved for normal matrices with distinct eigenvalues; violated for every diagonalisable matrix that is not normal (adjoint used in place of the inverse eigenvector matrix)."
  },
  {
   "property": "C21",
   "status": "partial",
   "theorems": [
    "Verif.Operator.c21_corrected_formula",
    "Verif.Operator.c21_degenerate",
    "Verif.Operator.c21_derivative_partial",
    "Verif.Operator.c21_violated"
   ],
   "note": "Proved when the matrix of eigenvectors is Hermitian; violated in general (basis changes the wrong way round, witness diag(2i,0,i)), and NaN for repeated eigenvalues. The corrected formula is proved."
  },
  {
   "property": "C22",
   "status": "proved",
   "theorems": [
    "Verif.Operator.c22_taylor"
   ],
   "note": "First, second and third order, complex directions parameter."
  },
  {
   "property": "C23",
   "status": "partial",
   "theorems": [
    "Verif.Operator.c23_consistent_partial",
    "Verif.Operator.c23_default",
    "Verif.Operator.c23_grad_independent",
    "Verif.Operator.c23_violated"
   ],
   "note": "Proved for spectral and Frechet; violated for approx and the Taylor methods, which return the default spectral exponential."
  },
  {
   "property": "C24",
   "status": "proved",
   "theorems": [
    "Verif.Operator.c24_closest",
    "Verif.Operator.c24_closest_operator_norm",
    "Verif.Operator.c24_fixes_unitary",
    "Verif.Operator.c24_unitary"
   ],
   "note": "Every square matrix and every singular value decomposition allowed by the contract of svd; smallest distance in the Frobenius norm and in the operator norm."
  },
  {
   "property": "C25",
   "status": "proved",
   "theorems": [
    "Verif.Operator.Heap.c25_history",
    "Verif.Operator.Heap.c25_inplace",
    "Verif.Operator.Heap.c25_no_inplace",
    "Verif.Operator.Heap.c25_ptrace_inplace",
    "Verif.Operator.Heap.c25_pure",
    "Verif.Operator.Heap.c25_rename",
    "Verif.Operator.Heap.c25_values",
    "Verif.Operator.Heap.c25_wrap"
   ],
   "note": "Every program of operator operations on a heap of objects and shared buffers, several names of one object included; complex128 arrays, no division by zero."
  },
  {
   "property": "C26",
   "status": "proved",
   "theorems": [
    "Verif.Operator.c26_add",
    "Verif.Operator.c26_bra",
    "Verif.Operator.c26_compose_needs_distinct",
    "Verif.Operator.c26_compose_square",
    "Verif.Operator.c26_compose_vector",
    "Verif.Operator.c26_dag",
    "Verif.Operator.c26_ket",
    "Verif.Operator.c26_map_to_closest_unitary",
    "Verif.Operator.c26_none",
    "Verif.Operator.c26_out_of_range",
    "Verif.Operator.c26_smul",
    "Verif.Operator.c26_square"
   ],
   "note": "Also shows which restriction on index lists is needed for truncating vectors twice, and what map_to_closest_unitary does to bras and kets."
  },
  {
   "property": "C27",
   "status": "proved",
   "theorems": [
    "Verif.Solver.c27_propagation",
    "Verif.Solver.c27_readable"
   ],
   "note": "Lists of forward and reversed propagators for every number of steps, propagator sequence and initial state; c27_readable shows that every accepted Schroedinger configuration yields the propagators exp(-i(H0+sum u H))."
  },
  {
   "property": "C28",
   "status": "proved",
   "theorems": [
    "Verif.Solver.c28_unitary"
   ],
   "note": "Methods Frechet (scipy expm contract) and spectral with is_skew_hermitian (eigh contract); Taylor methods are not unitary by construction."
  },
  {
   "property": "C29",
   "status": "partial",
   "theorems": [
    "Verif.Solver.c29_history_partial",
    "Verif.Solver.c29_propagators_partial",
    "Verif.Solver.c29_unset",
    "Verif.Solver.c29_violated_grape",
    "Verif.Solver.c29_violated_taylor"
   ],
   "note": "Proved for every history and every Stable configuration, and for every configuration if the history does not read derivatives. Violated (proved) for grape with calculate_propagator_derivatives=True and for Taylor methods with it False: the order of reads changes the results."
  },
  {
   "property": "C30",
   "status": "partial",
   "theorems": [
    "Verif.Solver.c30_different_pulse_partial",
    "Verif.Solver.c30_violated"
   ],
   "note": "Proved for a pulse different from the last one tried, after any history including exceptions. Violated (proved for every solver): a rejected pulse is accepted the second time and older results are reported."
  },
  {
   "property": "C31",
   "status": "partial",
   "theorems": [
    "Verif.Solver.c31_new_grid_partial",
    "Verif.Solver.c31_same_pulse_stale",
    "Verif.Solver.c31_shorter_grid_partial",
    "Verif.Solver.c31_violated",
    "Verif.Solver.c31_violated_longer_grid"
   ],
   "note": "Proved for a different pulse and a grid not longer than the original. Violated (proved): same pulse after set_times is not recomputed, and a longer grid raises IndexError with a single drift operator."
  },
  {
   "property": "C32",
   "status": "partial",
   "theorems": [
    "Verif.Solver.c32_derivative_partial",
    "Verif.Solver.c32_violated_grape"
   ],
   "note": "Proved for the default method Frechet. Violated (proved) for grape, whose derivatives are indexed [time][control]; spectral see C21."
  },
  {
   "property": "C33",
   "status": "proved",
   "theorems": [
    "Verif.Solver.c33_zero_noise"
   ],
   "note": "All sample shapes within range, all numbers of traces and processes."
  },
  {
   "property": "C34",
   "status": "proved",
   "theorems": [
    "Verif.Solver.c34_forward",
    "Verif.Solver.c34_independent",
    "Verif.Solver.c34_noise_traces"
   ],
   "note": "Propagators, forward and reversed propagation of every trace; independence of other traces. noise_amplitude_function None (the general case is C37)."
  },
  {
   "property": "C35",
   "status": "proved",
   "theorems": [
    "Verif.Solver.c35_processes",
    "Verif.Solver.c35_rejected"
   ],
   "note": "Equality of the results including exceptions; rejection of other values and of derivatives in parallel mode. Pool.map is modelled as the map over the list."
  },
  {
   "property": "C36",
   "status": "partial",
   "theorems": [
    "Verif.Solver.c36_too_many_samples_partial",
    "Verif.Solver.c36_violated"
   ],
   "note": "Violated (proved for every solver): too few samples are accepted and the later steps are propagated without noise. The partial theorem: too many samples or traces raise IndexError."
  },
  {
   "property": "C37",
   "status": "proved",
   "theorems": [
    "Verif.Solver.c37_control_noise",
    "Verif.Solver.c37_rejects"
   ],
   "note": "Any amplitude function; numpy broadcasting of single columns is not modelled."
  },
  {
   "property": "C38",
   "status": "proved",
   "theorems": [
    "Verif.Solver.c38_generator",
    "Verif.Solver.c38_lengths",
    "Verif.Solver.c38_no_operators",
    "Verif.Solver.c38_no_super_operators",
    "Verif.Solver.c38_prefactors"
   ],
   "note": "For Lindblad operators with or without prefactor function (any real weights), Hermitian drift and control Hamiltonians, all time steps; master equation stated independently on d x d matrices, column stacking vectorisation of Mathlib."
  },
  {
   "property": "C39",
   "status": "proved",
   "theorems": [
    "Verif.Solver.c39_trace_hermitian"
   ],
   "note": "Trace and Hermiticity preservation of every propagator and forward propagator for method Frechet under the expm contract, Lindblad operators with arbitrary real prefactors."
  },
  {
   "property": "C40",
   "status": "proved",
   "theorems": [
    "Verif.Solver.c40_coherent"
   ],
   "note": "For each step and the forward propagation, all Hamiltonians (not only Hermitian ones), vanishing dissipation given in any of the accepted ways; method Frechet for both solvers."
  },
  {
   "property": "C41",
   "status": "proved",
   "theorems": [
    "Verif.Solver.c41_directions",
    "Verif.Solver.c41_incomplete",
    "Verif.Solver.c41_lindblad_constant",
    "Verif.Solver.c41_lindblad_function",
    "Verif.Solver.c41_lindblad_prefactor"
   ],
   "note": "Schroedinger solver: all inputs. Lindblad solver: constant Lindblad operators, prefactor functions (with correct derivative function in the order time, control, operator that the code uses; the doc string says time, operator, control) and super operator functions; Hermitian controls (the direction uses the transpose where the generator uses the conjugate)."
  },
  {
   "property": "C42",
   "status": "partial",
   "theorems": [
    "Verif.Solver.c42_unchanged_partial",
    "Verif.Solver.c42_violated"
   ],
   "note": "Violated for two or more constant super operators: the first operator of the list passed by the caller accumulates the others (c42_violated). Proved for Lindblad operators, prefactor functions, super operator functions and at most one constant super operator."
  },
  {
   "property": "C43",
   "status": "proved",
   "theorems": [
    "Verif.Cost.c43_one_iff",
    "Verif.Cost.c43_phase",
    "Verif.Cost.c43_range",
    "Verif.Cost.c43_symmetric",
    "Verif.Cost.c43_truncated",
    "Verif.Cost.c43_unitary_invariance"
   ],
   "note": "Range, the characterisation of 1 (equality up to a phase), phase and unitary invariance, symmetry; on distinct computational states the fidelity is bounded by one minus the leakage."
  },
  {
   "property": "C44",
   "status": "proved",
   "theorems": [
    "Verif.Cost.c44_gradient",
    "Verif.Cost.c44_gradient_super_operator",
    "Verif.Cost.c44_schroedinger"
   ],
   "note": "For every sweep of one propagator, unitary and super operator form; c44_schroedinger is end to end with the Schroedinger solver (Frechet derivatives). The map to the closest unitary is the subject of C45."
  },
  {
   "property": "C45",
   "status": "partial",
   "theorems": [
    "Verif.Cost.c45_no_truncation_partial",
    "Verif.Cost.c45_violated"
   ],
   "note": "Violated (c45_violated): grad() does not pass map_to_closest_unitary on; for a rotated qubit truncated to one state the cost is constant 0 while the gradient is 24/25. Holds without computational states."
  },
  {
   "property": "C46",
   "status": "proved",
   "theorems": [
    "Verif.Cost.c46_super_operator"
   ],
   "note": "For every propagator and target, with and without distinct computational states."
  },
  {
   "property": "C47",
   "status": "proved",
   "theorems": [
    "Verif.Cost.c47_liouville"
   ],
   "note": "For every number of traces."
  },
  {
   "property": "C48",
   "status": "partial",
   "theorems": [
    "Verif.Cost.c48_gradient_partial",
    "Verif.Cost.c48_violated"
   ],
   "note": "Proved for both settings of neglect_systematic_errors and every number of traces without map_to_closest_unitary (or without computational states); with both c48_violated."
  },
  {
   "property": "C49",
   "status": "proved",
   "theorems": [
    "Verif.Cost.c49_liouville",
    "Verif.Cost.c49_range",
    "Verif.Cost.c49_trace_average",
    "Verif.Cost.c49_zero_iff"
   ],
   "note": "Range, zero exactly for unitary truncation, agreement with the Liouville form, trace averages."
  },
  {
   "property": "C50",
   "status": "proved",
   "theorems": [
    "Verif.Cost.c50_gradient",
    "Verif.Cost.c50_schroedinger",
    "Verif.Cost.c50_total"
   ],
   "note": "c50_gradient: where the leakage is positive (clipping inactive); c50_schroedinger is end to end with the Schroedinger solver; c50_total: total derivative without that condition for Hermitian Hamiltonians and a unitary initial operator."
  },
  {
   "property": "C51",
   "status": "proved",
   "theorems": [
    "Verif.Cost.c51_gradient",
    "Verif.Cost.c51_one_iff",
    "Verif.Cost.c51_range",
    "Verif.Cost.c51_rejects",
    "Verif.Cost.c51_schroedinger",
    "Verif.Cost.c51_target_ket"
   ],
   "note": "Kets of two or more dimensions; the effect of rescale_propagated_state is nil there. Gradient end to end for the Frechet method."
  },
  {
   "property": "C52",
   "status": "partial",
   "theorems": [
    "Verif.Cost.c52_gradient_partial",
    "Verif.Cost.c52_ket_density_partial",
    "Verif.Cost.c52_product_partial",
    "Verif.Cost.c52_range_partial",
    "Verif.Cost.c52_rejects",
    "Verif.Cost.c52_violated",
    "Verif.Cost.c52_violated_complex"
   ],
   "note": "Proved when some but not all subsystems are removed; removing none or all raises TypeError (violation proved). For a matrix whose expectation value has an imaginary part above 1e-5 the code means to warn and return the absolute value, but raises IndexError (c52_violated_complex)."
  },
  {
   "property": "C53",
   "status": "partial",
   "theorems": [
    "Verif.Cost.c53_rejects_partial",
    "Verif.Cost.c53_unitary_partial",
    "Verif.Cost.c53_violated"
   ],
   "note": "Proved for unitary matrices (exact outside the tolerance, 3e-6 inside). A non-unitary matrix is accepted: violation proved with a witness."
  },
  {
   "property": "C54",
   "status": "proved",
   "theorems": [
    "Verif.Cost.c54_average",
    "Verif.Cost.c54_range"
   ],
   "note": "For every 2x2 matrix."
  },
  {
   "property": "C55",
   "status": "partial",
   "theorems": [
    "Verif.Sim.c55_chain_rule_partial",
    "Verif.Sim.c55_rejects",
    "Verif.Sim.c55_violated"
   ],
   "note": "Proved for every simulator state, transfer function object (any nesting, matrices that fit the grid), identity, unary and time-local custom amplitude functions, and every cost function whose grad is the total derivative of its costs by the amplitudes (costFn_correct_of_hasFDerivAt gives this hypothesis in terms of HasFDerivAt). False for custom amplitude functions mixing time steps (c55_violated)."
  },
  {
   "property": "C56",
   "status": "proved",
   "theorems": [
    "Verif.Sim.c56_cost_order",
    "Verif.Sim.c56_jacobian_order",
    "Verif.Sim.c56_no_costs"
   ],
   "note": "Positions of values, labels and Jacobian rows agree; empty list of cost functions raises."
  },
  {
   "property": "C57",
   "status": "proved",
   "theorems": [
    "Verif.Sim.c57_forward",
    "Verif.Sim.c57_forward_bias",
    "Verif.Sim.c57_symmetric",
    "Verif.Sim.c57_wrapped"
   ],
   "note": "Exact for affine (forward) and quadratic (symmetric) costs; the bias of forward differences on quadratic costs is stated too. \"Leaves the pulse unchanged\" is stated for the pulse attribute; arrays are values in the model, so in-place modification of the argument cannot be expressed."
  },
  {
   "property": "C58",
   "status": "partial",
   "theorems": [
    "Verif.Sim.c58_next_evaluation_partial",
    "Verif.Sim.c58_violated"
   ],
   "note": "Proved: after any history the next evaluation without argument uses the last assigned pulse. Violated: the assignment itself does not reach the solvers, records the shape of the previous pulse, and raises AttributeError when no pulse was set before (c58_violated)."
  },
  {
   "property": "C59",
   "status": "proved",
   "theorems": [
    "Verif.Optim.c59_accepted",
    "Verif.Optim.c59_bounds",
    "Verif.Optim.c59_flatten_unflatten",
    "Verif.Optim.c59_jacobian_columns",
    "Verif.Optim.c59_unflatten_flatten"
   ],
   "note": "Reshaping and flattening are mutually inverse for every shape, bounds flattened like the pulse constrain the same entries, and column k of the flattened Jacobian is the derivative with respect to vector entry k."
  },
  {
   "property": "C60",
   "status": "partial",
   "theorems": [
    "Verif.Optim.c60_gradients_partial",
    "Verif.Optim.c60_recorded_partial",
    "Verif.Optim.c60_violated_reuse",
    "Verif.Optim.c60_violated_weights",
    "Verif.Optim.c60_weights_partial"
   ],
   "note": "Proved without weights for every history in which the caller does not overwrite shared arrays; the gradients (c60_gradients_partial) for every history. With weights the stored costs are multiplied in place (c60_violated_weights); a caller that reuses its vector changes the recorded parameters (c60_violated_reuse)."
  },
  {
   "property": "C61",
   "status": "partial",
   "theorems": [
    "Verif.Optim.c61_best_partial",
    "Verif.Optim.c61_violated"
   ],
   "note": "Proved without weights. With weights the stored minimum is multiplied in place and later compared with unweighted costs (c61_violated)."
  },
  {
   "property": "C62",
   "status": "partial",
   "theorems": [
    "Verif.Optim.c62_independent_partial",
    "Verif.Optim.c62_last_wins",
    "Verif.Optim.c62_shared",
    "Verif.Optim.c62_values_partial",
    "Verif.Optim.c62_violated",
    "Verif.Optim.c62_violated_annealer"
   ],
   "note": "Proved only for constructions without termination_cond. All optimizers share the dictionary of the library (c62_shared), so every explicit condition changes the defaults and all other optimizers (c62_violated, c62_violated_annealer)."
  },
  {
   "property": "C63",
   "status": "partial",
   "theorems": [
    "Verif.Optim.c63_timeout_partial",
    "Verif.Optim.c63_violated_early",
    "Verif.Optim.c63_violated_shape"
   ],
   "note": "Proved for pulses with one time step or one control and no weights. The stored (time, control) array is reshaped a second time before the Jacobian is evaluated (c63_violated_shape), and without an evaluation an AttributeError escapes (c63_violated_early)."
  },
  {
   "property": "C64",
   "status": "proved",
   "theorems": [
    "Verif.Optim.c64_consistent",
    "Verif.Optim.c64_gradient",
    "Verif.Optim.c64_mismatch",
    "Verif.Optim.c64_objective",
    "Verif.Optim.c64_rejects"
   ],
   "note": "Objective and gradient for every state, vector, cost vector, Jacobian and weights; consistency of the two via C59."
  },
  {
   "property": "C65",
   "status": "partial",
   "theorems": [
    "Verif.Optim.Anneal.c65_move_partial",
    "Verif.Optim.Anneal.c65_moves_partial",
    "Verif.Optim.Anneal.c65_rejects",
    "Verif.Optim.Anneal.c65_violated"
   ],
   "note": "Proved for float pulses and for integer pulses with integer bounds. For integer pulses with other bounds the bound is truncated on assignment and the move leaves the bounds (c65_violated)."
  },
  {
   "property": "C66",
   "status": "proved",
   "theorems": [
    "Verif.Data.c66_faithful_log",
    "Verif.Data.c66_nothing_refused"
   ],
   "note": "Histories of creating containers and appending results over a heap of Python lists; the logs are compared with a specification that replays the operations."
  },
  {
   "property": "C67",
   "status": "proved",
   "theorems": [
    "Verif.Data.c67_constructed",
    "Verif.Data.c67_round_trip",
    "Verif.Data.c67_unknown_key"
   ],
   "note": "Round trip of the dictionary for every container; keys and errors included."
  },
  {
   "property": "C68",
   "status": "partial",
   "theorems": [
    "Verif.Data.c68_iff",
    "Verif.Data.c68_round_trip_partial",
    "Verif.Data.c68_unknown_key",
    "Verif.Data.c68_violated"
   ],
   "note": "The round trip loses status: it is the identity exactly for results whose status is None (c68_iff); negation proved."
  },
  {
   "property": "C69",
   "status": "partial",
   "theorems": [
    "Verif.Data.c69_container_partial",
    "Verif.Data.c69_errors_partial",
    "Verif.Data.c69_rejects",
    "Verif.Data.c69_same_as_sequential_partial",
    "Verif.Data.c69_violated"
   ],
   "note": "Proved for every schedule and number of processes when the outcome of a run does not depend on process-wide state; with the global random generator workers share their state and the property fails (c69_violated)."
  },
  {
   "property": "C70",
   "status": "partial",
   "theorems": [
    "Verif.Data.c70_absolute_costs_partial",
    "Verif.Data.c70_best_run",
    "Verif.Data.c70_found",
    "Verif.Data.c70_violated_broadcast",
    "Verif.Data.c70_violated_empty_run",
    "Verif.Data.c70_violated_widths"
   ],
   "note": "n_least_square proved for all inputs; absolute_costs proved when every run has at least one step and all steps have the same number of costs; a run without steps makes it raise (c70_violated_empty_run)."
  },
  {
   "property": "C71",
   "status": "proved",
   "theorems": [
    "Verif.Noise.c71_blocks",
    "Verif.Noise.c71_constant",
    "Verif.Noise.c71_monte_carlo",
    "Verif.Noise.c71_one_operator",
    "Verif.Noise.c71_shape",
    "Verif.Noise.c71_unknown_mode"
   ],
   "note": "Exact value of every entry of the sample array for all sizes, in both modes."
  },
  {
   "property": "C72",
   "status": "proved",
   "theorems": [
    "Verif.Noise.c72_equal_parts",
    "Verif.Noise.c72_samples",
    "Verif.Noise.c72_scaling",
    "Verif.Noise.c72_zero"
   ],
   "note": "erfinv is a parameter with the contract erf(erfinv y) = y, shown to be satisfiable; erf is defined by its integral. Also: between adjacent samples lies exactly the n-th part of the normal distribution."
  },
  {
   "property": "C73",
   "status": "partial",
   "theorems": [
    "Verif.Noise.c73_no_noise",
    "Verif.Noise.c73_one_operator_partial",
    "Verif.Noise.c73_succeeds",
    "Verif.Noise.c73_value",
    "Verif.Noise.c73_violated"
   ],
   "note": "Holds for a single operator; for two or more operators the standard deviation is strictly too small for every list and every number of traces (c73_violated, exact value c73_value)."
  },
  {
   "property": "C74",
   "status": "partial",
   "theorems": [
    "Verif.Noise.c74_no_correction_partial",
    "Verif.Noise.c74_other_lists",
    "Verif.Noise.c74_violated",
    "Verif.Noise.c74_violated_error"
   ],
   "note": "The correction changes the list of the caller: every positive entry strictly increases (c74_violated), also when the constructor raises. Without correction nothing is changed."
  },
  {
   "property": "C75",
   "status": "partial",
   "theorems": [
    "Verif.Noise.c75_one_dim_value",
    "Verif.Noise.c75_two_dim_partial",
    "Verif.Noise.c75_two_dim_plane_partial",
    "Verif.Noise.c75_violated"
   ],
   "note": "The two-dimensional curve integrates to one; the one-dimensional curve integrates to 1/sqrt(2 pi) for every standard deviation (c75_violated)."
  },
  {
   "property": "C76",
   "status": "partial",
   "theorems": [
    "Verif.Noise.c76_length_partial",
    "Verif.Noise.c76_shape",
    "Verif.Noise.c76_sum_zero",
    "Verif.Noise.c76_violated"
   ],
   "note": "Sum zero proved for all inputs. With r_power_of_two the length is rounded up instead of down (c76_violated)."
  },
  {
   "property": "C77",
   "status": "proved",
   "theorems": [
    "Verif.Noise.c77_redraw",
    "Verif.Noise.c77_stable",
    "Verif.Noise.c77_stored"
   ],
   "note": "Histories of reads of samples and counts and switches of always_redraw_samples over an arbitrary drawing function."
  },
  {
   "property": "C78",
   "status": "partial",
   "theorems": [
    "Verif.Solver.c78_recovers_partial",
    "Verif.Solver.c78_violated"
   ],
   "note": "Recovery by a different pulse proved for all histories; violated (proved): after a failed computation the second read returns a list of None."
  },
  {
   "property": "C79",
   "status": "partial",
   "theorems": [
    "Verif.Solver.c79_nonempty_partial",
    "Verif.Solver.c79_violated"
   ],
   "note": "One operator and one per step proved to propagate, other lengths proved to be rejected (c79_nonempty_partial); violated (proved) for the empty list."
  },
  {
   "property": "C80",
   "status": "partial",
   "theorems": [
    "Verif.Cost.c80_range",
    "Verif.Cost.c80_value",
    "Verif.Cost.c80_violated_leakage",
    "Verif.Cost.c80_zero_partial"
   ],
   "note": "c80_value, c80_range, c80_zero_partial. Violated on a subspace if systematic errors are neglected and the noiseless final state is not in the subspace: without any noise the result is 1 - w^2 with w its weight in the subspace (c80_violated_leakage)."
  },
  {
   "property": "C81",
   "status": "partial",
   "theorems": [
    "Verif.Data.c81_method_partial",
    "Verif.Data.c81_violated"
   ],
   "note": "The method has no memo parameter, copy.deepcopy always raises TypeError (c81_violated); the method itself called directly gives an independent equal container."
  },
  {
   "property": "C82",
   "status": "partial",
   "theorems": [
    "Verif.Noise.c82_odd_value",
    "Verif.Noise.c82_spectrum_partial",
    "Verif.Noise.c82_violated"
   ],
   "note": "Proved for even lengths; for odd lengths the density is evaluated at k/((n-1) dt) instead of k/(n dt) (c82_odd_value, c82_violated)."
  },
  {
   "property": "C83",
   "status": "proved",
   "theorems": [
    "Verif.Noise.c83_own_numbers",
    "Verif.Noise.c83_prefix",
    "Verif.Noise.c83_rejects",
    "Verif.Noise.c83_shape"
   ],
   "note": "Shape, prefix property and rejected arguments."
  },
  {
   "property": "C84",
   "status": "partial",
   "theorems": [
    "Verif.Transfer.c84_first_grid_partial",
    "Verif.Transfer.c84_gradient_partial",
    "Verif.Transfer.c84_linear_partial",
    "Verif.Transfer.c84_rejects",
    "Verif.Transfer.c84_violated_explicit",
    "Verif.Transfer.c84_violated_length",
    "Verif.Transfer.c84_violated_second",
    "Verif.Transfer.c84_violated_truncated"
   ],
   "note": "Proved for the first grid of an object without explicit x_times and a matrix that fits. Violated: explicit x_times are replaced and every call raises RuntimeError; the second set_times stores the raw durations as x_times; with padding the quotient is truncated without a check; the first set_times accepts a grid of any length, and calls then raise or (matrix with one column, pulse with one row) return a number of rows that is not the number of durations."
  },
  {
   "property": "C85",
   "status": "partial",
   "theorems": [
    "Verif.Data.Timing.c85_before_first_run",
    "Verif.Data.Timing.c85_distinct",
    "Verif.Data.Timing.c85_final_partial",
    "Verif.Data.Timing.c85_opt_times_unfinished",
    "Verif.Data.Timing.c85_violated"
   ],
   "note": "Proved: after the start of the next optimization the statistics of a run never change again; the results of a session never share an object. Violated: the simulator keeps writing into the object of the last run when the user evaluates it afterwards (c85_violated)."
  },
  {
   "property": "C86",
   "status": "partial",
   "theorems": [
    "Verif.Data.Timing.c86_consistent_partial",
    "Verif.Data.Timing.c86_not_recorded",
    "Verif.Data.Timing.c86_shares_partial",
    "Verif.Data.Timing.c86_violated_numeric",
    "Verif.Data.Timing.c86_violated_wall_time"
   ],
   "note": "Proved for every run except least-squares runs that exceed the wall time with a Jacobian function, and for the analyser over any sequence of such runs. Violated: write_state_to_result takes the end time before it computes the Jacobian (c86_violated_wall_time); with numeric_jacobian gradient times are recorded as cost times (c86_violated_numeric)."
  },
  {
   "property": "C87",
   "status": "partial",
   "theorems": [
    "Verif.Solver.c87_arguments_partial",
    "Verif.Solver.c87_basis_partial",
    "Verif.Solver.c87_frequencies_partial",
    "Verif.Solver.c87_new_pulse_partial",
    "Verif.Solver.c87_no_operators",
    "Verif.Solver.c87_rejects",
    "Verif.Solver.c87_violated_basis",
    "Verif.Solver.c87_violated_callable",
    "Verif.Solver.c87_violated_frequencies",
    "Verif.Solver.c87_violated_identifiers"
   ],
   "note": "Proved for the Schroedinger solvers: amplitudes, durations, noise terms and identifiers after every history; given frequencies and the solver's basis are always used; malformed terms are rejected. Violated: Monte Carlo solvers never fill the identifiers (c87_violated_identifiers) and call the documented three-argument callable with one argument (c87_violated_callable); default frequencies stay those of the first pulse sequence (c87_violated_frequencies); a basis named once sticks (c87_violated_basis)."
  },
  {
   "property": "C88",
   "status": "partial",
   "theorems": [
    "Verif.Cost.c88_entanglement_partial",
    "Verif.Cost.c88_grape",
    "Verif.Cost.c88_violated",
    "Verif.Cost.c88_with_derivatives"
   ],
   "note": "Proved: with exact propagator derivatives the function with_du returns the exact derivative of the average gate fidelity for every entry; derivative_average_gate_fidelity does so with the derivatives of the grape approximation and Hermitian controls; derivative_entanglement_fidelity for an array of one duration. Violated: derivative_entanglement_fidelity with a list of durations raises TypeError and with an array of two or more durations ValueError (c88_violated)."
  },
  {
   "property": "C89",
   "status": "partial",
   "theorems": [
    "Verif.Cost.c89_label_places_partial",
    "Verif.Cost.c89_labels_partial",
    "Verif.Cost.c89_phase",
    "Verif.Cost.c89_violated_constructor",
    "Verif.Cost.c89_violated_first_entry",
    "Verif.Cost.c89_violated_target",
    "Verif.Cost.c89_zero_partial"
   ],
   "note": "Proved for the method costs: the global phase of the propagator is ignored, zero costs iff equality up to a phase when target[0,0] is positive, and the number of labels. Violated: the phase of the target is not removed (c89_violated_target), a propagator with vanishing first entry raises NotImplementedError (c89_violated_first_entry), and the constructor always raises TypeError because super().__init__() is called without the solver (c89_violated_constructor). The gradient is the subject of C141."
  },
  {
   "property": "C90",
   "status": "partial",
   "theorems": [
    "Verif.Sim.c90_consistent",
    "Verif.Sim.c90_limit",
    "Verif.Sim.c90_measure",
    "Verif.Sim.c90_violated_numeric"
   ],
   "note": "Proved: meaning and bounds of the two numbers (c90_measure); limit zero for every correct, differentiable cost function (c90_limit); exactly zero for quadratic costs with symmetric and affine costs with forward differences (c90_consistent). Violated: with numeric_jacobian=True the numeric gradient is compared with itself, so the result is zero whatever grad() returns (c90_violated_numeric)."
  },
  {
   "property": "C91",
   "status": "partial",
   "theorems": [
    "Verif.Operator.c91_approx_partial",
    "Verif.Operator.c91_frechet",
    "Verif.Operator.c91_unknown",
    "Verif.Operator.c91_violated_approx",
    "Verif.Operator.c91_violated_witness"
   ],
   "note": "Proved: Frechet (c91_frechet, given scipy's contract), the limit of approx for normal matrices with distinct eigenvalues (c91_approx_partial), unknown methods (c91_unknown; exp raises ValueError although NotImplementedError is documented). Violated: approx subtracts the exponential of the default spectral method, so for every matrix where that one is wrong some entry diverges as epsilon tends to zero (c91_violated_approx), for instance [[0,1],[0,1]] and every tau (c91_violated_witness)."
  },
  {
   "property": "C92",
   "status": "proved",
   "theorems": [
    "Verif.Operator.c92_taylor_error"
   ],
   "note": "c92_taylor_error; decimal constants are read as the fractions they stand for."
  },
  {
   "property": "C93",
   "status": "proved",
   "theorems": [
    "Verif.Cost.c93_noise_total",
    "Verif.Cost.c93_operation_total",
    "Verif.Cost.c93_state_total",
    "Verif.Sim.c93_gradient"
   ],
   "note": "c93_gradient; c93_operation_total, c93_state_total and c93_noise_total (and c50_total, c98_total) say that the gradients of the cost functions are the total derivative with respect to the whole array of amplitudes. The scipy routines expm and expm_frechet enter with their documented meaning (ExpmOk, FrechetOk)."
  },
  {
   "property": "C94",
   "status": "proved",
   "theorems": [
    "Verif.Solver.c94_derivatives",
    "Verif.Solver.c94_grape",
    "Verif.Solver.c94_traces"
   ],
   "note": "c94_traces, c94_derivatives, c94_grape. The multiprocessing pool enters as an order preserving map."
  },
  {
   "property": "C95",
   "status": "partial",
   "theorems": [
    "Verif.Sim.c95_additive_partial",
    "Verif.Sim.c95_frozen_partial",
    "Verif.Sim.c95_violated"
   ],
   "note": "Violated: c95_violated (amplitude x**2, the Jacobian of the simulator is 0 where the cost has slope sqrt(pi)). Proved instead: the gradient is the derivative at frozen noise amplitudes (c95_frozen_partial), hence right when the noise on the amplitudes does not depend on the pulse, e.g. for affine amplitude functions (c95_additive_partial)."
  },
  {
   "property": "C96",
   "status": "proved",
   "theorems": [
    "Verif.Solver.c96_completely_positive",
    "Verif.Solver.c96_density",
    "Verif.Solver.c96_kraus"
   ],
   "note": "c96_completely_positive, c96_density and c96_kraus (Kraus operators K with sum K^dagger K = 1). An example shows that a negative prefactor makes the evolution leave the density matrices, so the condition is needed; the code does not check it."
  },
  {
   "property": "C97",
   "status": "proved",
   "theorems": [
    "Verif.Cost.c97_infidelity",
    "Verif.Cost.c97_leakage"
   ],
   "note": "c97_infidelity and c97_leakage, on the forward propagators the solver returns (c96). Conditions: distinct, non-empty computational states, unitary target, non-negative steps and prefactors."
  },
  {
   "property": "C98",
   "status": "proved",
   "theorems": [
    "Verif.Cost.c98_total"
   ],
   "note": "c98_total. The functions given by the user may depend on the amplitudes of the same time step only and not on the transferred parameters; expm and expm_frechet enter with their documented meaning. Through simulator, transfer and amplitude functions: c93_gradient."
  },
  {
   "property": "C99",
   "status": "partial",
   "theorems": [
    "Verif.Solver.c99_history_partial",
    "Verif.Solver.c99_new_pulse_partial",
    "Verif.Solver.c99_values",
    "Verif.Solver.c99_violated",
    "Verif.Solver.c99_violated_grid",
    "Verif.Solver.c99_violated_reads"
   ],
   "note": "c99_new_pulse_partial: a newly set pulse after any history (calls may raise), grids with the same number of steps, dissipation computable for the new pulse. c99_history_partial: any sequence of successful calls on one grid. c99_values ties the object to the functions of C38 to C41 and C98. Violated: after a read that raised because no dissipation was given, the next read returns the d x d propagators of the Schroedinger equation (c99_violated), the reversed propagators are products of those, the other reads raise ValueError (c99_violated_reads); constant dissipation is kept when the number of steps shrinks (c99_violated_grid). A derivative function given without its function is excluded."
  },
  {
   "property": "C100",
   "status": "partial",
   "theorems": [
    "Verif.Solver.c100_draws",
    "Verif.Solver.c100_no_pulse",
    "Verif.Solver.c100_realisation_partial",
    "Verif.Solver.c100_times_partial",
    "Verif.Solver.c100_total",
    "Verif.Solver.c100_values",
    "Verif.Solver.c100_violated_parallel",
    "Verif.Solver.c100_violated_samples"
   ],
   "note": "c100_realisation_partial: as long as no read since the pulse was set has raised, every read (value or exception) is that of the samples drawn once. c100_draws: one read of the generator per pulse in a session. c100_total: no read raises if the results are computable. c100_values: trace k is the solver without noise whose drift contains the samples of trace k. Violated after exceptions: c100_violated_samples, c100_violated_parallel. The number of traces is a constant of the model."
  },
  {
   "property": "C101",
   "status": "partial",
   "theorems": [
    "Verif.Optim.Anneal.c101_best",
    "Verif.Optim.Anneal.c101_no_bounds",
    "Verif.Optim.Anneal.c101_returns",
    "Verif.Optim.Anneal.c101_violated_costs",
    "Verif.Optim.Anneal.c101_violated_report",
    "Verif.Optim.Anneal.c101_violated_wall",
    "Verif.Optim.Anneal.c101_within_partial"
   ],
   "note": "c101_best: best pulse, cost and number of evaluations. c101_within_partial: bounds (representable in the data type of the pulse). c101_returns: a result is returned whenever the step size, bounds and temperatures are valid, the time suffices and the simulator does not raise. Violated for the description of the run: c101_violated_report, c101_violated_costs, c101_violated_wall. simanneal.Annealer.anneal is modelled from its published source (trusted)."
  },
  {
   "property": "C102",
   "status": "partial",
   "theorems": [
    "Verif.Sim.History.c102_history_partial",
    "Verif.Sim.History.c102_order",
    "Verif.Sim.History.c102_violated"
   ],
   "note": "c102_history_partial: every pulse for which no earlier call has raised; calls for other pulses may have raised. c102_order: without exceptions the order does not matter. Violated after an exception: c102_violated (a pulse which a solver rejects is accepted the second time, and the costs of the previous pulse are returned for it)."
  },
  {
   "property": "C103",
   "status": "proved",
   "theorems": [
    "Verif.Sim.c103_costs",
    "Verif.Sim.c103_forward",
    "Verif.Sim.c103_gradient"
   ],
   "note": "c103_forward (any padding; methods 'Frechet' with the contract of expm, and 'spectral' with the contract of eigh and Hermitian operators), c103_costs and c103_gradient (no padding, method 'Frechet'). The approximate methods are outside: their error depends on the step length."
  },
  {
   "property": "C104",
   "status": "proved",
   "theorems": [
    "Verif.Sim.c104_costs",
    "Verif.Sim.c104_forward",
    "Verif.Sim.c104_gradient"
   ],
   "note": "c104_forward (methods 'Frechet' with the contract of expm, and 'spectral' with the contract of eigh and Hermitian operators), c104_costs and c104_gradient (method 'Frechet', transfer functions which act in the same way in both units of time; run_scaled shows this for OversamplingTF). The approximate methods are not invariant under a shift of the energy."
  },
  {
   "property": "C105",
   "status": "partial",
   "theorems": [
    "Verif.Transfer.c105_injective",
    "Verif.Transfer.c105_reverse_partial",
    "Verif.Transfer.c105_violated",
    "Verif.Transfer.c105_violated_attribute",
    "Verif.Transfer.c105_violated_padding",
    "Verif.Transfer.c105_violated_single",
    "Verif.Transfer.c105_violated_start",
    "Verif.Transfer.c105_violated_times"
   ],
   "note": "Injectivity holds (c105_injective). reverse_state reads two attributes that nothing sets: it always raises AttributeError (c105_violated), also when the first is set by hand (c105_violated_attribute). With the attributes set by hand, the start value to the offset, it recovers the pulse plus the offset when there is no padding at the start, with and without the argument times (c105_reverse_partial); not with padding (c105_violated_padding), another start value (c105_violated_start) or a single time (c105_violated_single)."
  },
  {
   "property": "C106",
   "status": "partial",
   "theorems": [
    "Verif.Noise.c106_at_most",
    "Verif.Noise.c106_count_partial",
    "Verif.Noise.c106_spread_partial",
    "Verif.Noise.c106_violated"
   ],
   "note": "Never more than n_samples samples (c106_at_most); exactly n_samples and equal weights up to 1/1200^2 for n_samples up to a million (c106_count_partial, c106_spread_partial); fewer than n_samples when n_samples exceeds 10^8 (c106_violated). Not decided: between a million and 10^8."
  },
  {
   "property": "C107",
   "status": "partial",
   "theorems": [
    "Verif.Data.c107_colour_basis",
    "Verif.Data.c107_colour_moduli",
    "Verif.Data.c107_colour_range",
    "Verif.Data.c107_colours",
    "Verif.Data.c107_energies",
    "Verif.Data.c107_unique",
    "Verif.Data.c107_violated_columns"
   ],
   "note": "Everything about the plot is proved (c107_energies, c107_colours, c107_colour_range, c107_colour_moduli, c107_colour_basis, c107_unique). The documented layout of vector_color_map is violated: it colours rows (c107_violated_columns)."
  },
  {
   "property": "C108",
   "status": "partial",
   "theorems": [
    "Verif.Data.c108_errors",
    "Verif.Data.c108_faithful",
    "Verif.Data.c108_kets",
    "Verif.Data.c108_violated_density"
   ],
   "note": "Proved for kets (c108_kets, c108_faithful, c108_errors). Violated for density matrices (c108_violated_density): the state is multiplied from the left only."
  },
  {
   "property": "C109",
   "status": "partial",
   "theorems": [
    "Verif.Noise.c109_covariance_partial",
    "Verif.Noise.c109_generator_partial",
    "Verif.Noise.c109_periodogram_partial",
    "Verif.Noise.c109_rejects",
    "Verif.Noise.c109_violated",
    "Verif.Noise.c109_violated_periodogram_odd",
    "Verif.Noise.c109_violated_scaling"
   ],
   "note": "Proved for even lengths (c109_covariance_partial, c109_generator_partial, c109_periodogram_partial, c109_rejects). Violated for odd lengths (c109_violated, c109_violated_periodogram_odd: the density is evaluated at k/((n-1) dt)) and for scaling='spectrum' (c109_violated_scaling: a power is compared with a density)."
  },
  {
   "property": "C110",
   "status": "partial",
   "theorems": [
    "Verif.Solver.c110_forgotten",
    "Verif.Solver.c110_initial_partial",
    "Verif.Solver.c110_violated_rows"
   ],
   "note": "Proved for amplitudes of the right shape (c110_initial_partial, c110_forgotten). Violated for too few rows (c110_violated_rows): the constructor does not look at the shape and the missing steps evolve without control."
  },
  {
   "property": "C111",
   "status": "proved",
   "theorems": [
    "Verif.Cost.c111_estimator",
    "Verif.Cost.c111_quasi_static_mean",
    "Verif.Noise.c111_colored",
    "Verif.Noise.c111_quasi_static"
   ],
   "note": "Mean, variance and Hoeffding bound in c111_estimator; the generators satisfy its hypothesis (c111_quasi_static, c111_colored). Random numbers are independent standard normals (np.random contract). The projection of the truncated propagator to a unitary matrix (map_to_closest_unitary on a proper subspace) is excluded."
  },
  {
   "property": "C112",
   "status": "proved",
   "theorems": [
    "Verif.Cost.c112_quasi_static",
    "Verif.Cost.c112_unbiased"
   ],
   "note": "c112_unbiased, c112_quasi_static. Gradients are computed in one process with the Frechet method, as for C93; amplitudes are the variables (reachable through the amplitude and transfer functions). Projection to the closest unitary on a proper subspace is excluded."
  },
  {
   "property": "C113",
   "status": "proved",
   "theorems": [
    "Verif.Solver.c113_arguments",
    "Verif.Solver.c113_derivative",
    "Verif.Solver.c113_layout"
   ],
   "note": "c113_arguments, c113_layout, c113_derivative. The package filter_functions is a parameter with the contract Pkg.Correct and Pkg.Shape (exPkg satisfies it); the frequencies are given to the cost function in c113_derivative."
  },
  {
   "property": "C114",
   "status": "proved",
   "theorems": [
    "Verif.Cost.c114_convergence",
    "Verif.Cost.c114_value"
   ],
   "note": "c114_value, c114_convergence. scipy.special.erfinv is a parameter with the contract IsErfinv. Convergence without a rate; projection to the closest unitary on a proper subspace is excluded, as for C111."
  },
  {
   "property": "C115",
   "status": "proved",
   "theorems": [
    "Verif.Sim.c115_concat",
    "Verif.Sim.c115_idle",
    "Verif.Sim.c115_order",
    "Verif.Sim.c115_product",
    "Verif.Sim.c115_reversal",
    "Verif.Sim.c115_zero_step"
   ],
   "note": "c115_concat, c115_product, c115_zero_step, c115_order, c115_idle, c115_reversal. Derivatives in c115_order and c115_idle are those of the Frechet method without approximation."
  },
  {
   "property": "C116",
   "status": "partial",
   "theorems": [
    "Verif.Cost.c116_gradient",
    "Verif.Cost.c116_step",
    "Verif.Cost.c116_violated_default"
   ],
   "note": "c116_step bounds the error of every entry of frechet_deriv_propagators (found at [t][c], see C32), c116_gradient the error of the gradient for neglect_systematic_errors=False. c116_violated_default: with the default neglect_systematic_errors=True the gradient raises an exception whenever the numbers of time steps and controls differ, because the derivatives without noise are arranged [time step][control]."
  },
  {
   "property": "C117",
   "status": "proved",
   "theorems": [
    "Verif.Cost.c117_amplitudes",
    "Verif.Cost.c117_noise",
    "Verif.Cost.c117_perfect",
    "Verif.Cost.c117_second_order"
   ],
   "note": "c117_amplitudes (costs and gradient), c117_perfect (pulses which implement the target), c117_noise and c117_second_order. The propagators are those of the exact expm (contract ExpmOk), exceptions for invalid shapes are excluded by Valid/NoisySystem. map_to_closest_unitary only without computational states, as the argument of the singular value decomposition is not continuous."
  },
  {
   "property": "C118",
   "status": "proved",
   "theorems": [
    "Verif.Cost.c118_basis",
    "Verif.Cost.c118_leakage",
    "Verif.Cost.c118_no_converse",
    "Verif.Cost.c118_state"
   ],
   "note": "c118_basis, c118_state, c118_leakage, c118_no_converse. The propagators are those of the exact expm (contract ExpmOk). map_to_closest_unitary only without computational states."
  },
  {
   "property": "C119",
   "status": "proved",
   "theorems": [
    "Verif.Cost.c119_area",
    "Verif.Cost.c119_evolution",
    "Verif.Cost.c119_gradient"
   ],
   "note": "c119_evolution, c119_area, c119_gradient. The propagators and derivatives are those of the exact expm and expm_frechet (contracts ExpmOk, FrechetOk). map_to_closest_unitary only without computational states for the gradient."
  },
  {
   "property": "C120",
   "status": "proved",
   "theorems": [
    "Verif.Optim.c120_counts",
    "Verif.Optim.c120_result"
   ],
   "note": "c120_counts, c120_result. Results of optimisations which are not ended by the time limit take num_iter from scipy, which is not modelled."
  },
  {
   "property": "C121",
   "status": "proved",
   "theorems": [
    "Verif.Cost.c121_noise",
    "Verif.Cost.c121_operation",
    "Verif.Sim.c121_numeric"
   ],
   "note": "c121_operation, c121_noise, c121_numeric. Exact derivatives ('frechet', no approximation); contracts of expm and expm_frechet as everywhere; rounding of floating point numbers, which dominates for tiny delta_eps, is not modelled."
  },
  {
   "property": "C122",
   "status": "proved",
   "theorems": [
    "Verif.Cost.c122_dexp",
    "Verif.Cost.c122_gradient"
   ],
   "note": "c122_dexp, c122_gradient. Contracts of np.linalg.eig and scipy expm; pairwise different eigenvalues are required because dexp obtains the exponential for these methods from exp with the default method, np.linalg.eig, whose eigenvectors are only known to be invertible then. Rounding, which limits 'approx' in practice, is not modelled."
  },
  {
   "property": "C123",
   "status": "proved",
   "theorems": [
    "Verif.Sim.c123_not_hidden",
    "Verif.Sim.c123_repeated",
    "Verif.Sim.c123_sequence"
   ],
   "note": "c123_sequence, c123_repeated, c123_not_hidden. Exponential methods 'Frechet' (expm) and 'spectral' with is_skew_hermitian=True; the solver has identity transfer and amplitude functions and starts with the identity."
  },
  {
   "property": "C124",
   "status": "proved",
   "theorems": [
    "Verif.Cost.c124_attained",
    "Verif.Cost.c124_dissipation",
    "Verif.Cost.c124_weak"
   ],
   "note": "c124_dissipation, c124_weak, c124_attained. Exponential method 'Frechet' (expm); both solvers start with the identity; super_operator_function not used."
  },
  {
   "property": "C125",
   "status": "proved",
   "theorems": [
    "Verif.Sim.c125_conserved",
    "Verif.Sim.c125_speed_limit",
    "Verif.Sim.c125_unreachable"
   ],
   "note": "c125_speed_limit, c125_conserved, c125_unreachable. The conservation law is stated on the whole space (no computational states). The example with a qubit whose only control shifts the energy of its levels shows that (b) is sharp: infidelity one for the target X."
  },
  {
   "property": "C126",
   "status": "partial",
   "theorems": [
    "Verif.Cost.c126_measure",
    "Verif.Cost.c126_no_target",
    "Verif.Cost.c126_quiet",
    "Verif.Cost.c126_triangle",
    "Verif.Cost.c126_violated_leakage",
    "Verif.Cost.c126_violated_measure",
    "Verif.Cost.c126_violated_state"
   ],
   "note": "c126_triangle, c126_quiet, c126_no_target, c126_measure. Violated: on a subspace without map_to_closest_unitary the leakage of the noiseless evolution remains, 1 - (1 - L)^2 without noise (c126_violated_leakage); StateNoiseInfidelity cannot be created without a target (c126_violated_state); OperationNoiseInfidelity.grad does not check the measure (c126_violated_measure)."
  },
  {
   "property": "C127",
   "status": "proved",
   "theorems": [
    "Verif.Solver.c127_mixing"
   ],
   "note": "c127_mixing. Beside it: decay (not normal) makes the totally mixed state purer."
  },
  {
   "property": "C128",
   "status": "proved",
   "theorems": [
    "Verif.Solver.c128_concat",
    "Verif.Solver.c128_product",
    "Verif.Solver.c128_refine",
    "Verif.Solver.c128_split",
    "Verif.Solver.c128_zero_step"
   ],
   "note": "c128_concat, c128_product, c128_refine, c128_split, c128_zero_step."
  },
  {
   "property": "C129",
   "status": "proved",
   "theorems": [
    "Verif.Sim.c129_forward",
    "Verif.Sim.c129_gates",
    "Verif.Sim.c129_gradient"
   ],
   "note": "c129_forward, c129_gates, c129_gradient."
  },
  {
   "property": "C130",
   "status": "partial",
   "theorems": [
    "Verif.Solver.c130_own_partial",
    "Verif.Solver.c130_shared_partial",
    "Verif.Solver.c130_violated"
   ],
   "note": "Holds if the transfer or the amplitude function returns a new array (c130_own_partial), and for the default functions as long as the array holds the pulse whenever a result is read (c130_shared_partial). The default functions return their argument, so that the control amplitudes are the array of the caller: overwriting it changes the results, and setting the pulse again does not repair them (c130_violated)."
  },
  {
   "property": "C131",
   "status": "partial",
   "theorems": [
    "Verif.Sim.History.c131_first_partial",
    "Verif.Sim.History.c131_harmless_partial",
    "Verif.Sim.History.c131_new_partial",
    "Verif.Sim.History.c131_violated",
    "Verif.Sim.History.c131_violated_repeat"
   ],
   "note": "New solvers raise at every call without a pulse (c131_new_partial); the first call without a pulse after one with a pulse raises AttributeError (c131_first_partial); later calls with a pulse are not disturbed, unless they raised before as in C102 (c131_harmless_partial). From the second call without a pulse on, the costs of the last pulse are returned, for every history (c131_violated_repeat, concrete witness c131_violated). Transfer and amplitude functions are the defaults."
  },
  {
   "property": "C132",
   "status": "partial",
   "theorems": [
    "Verif.Sim.Vectorize.c132_gradient_partial",
    "Verif.Sim.Vectorize.c132_iff",
    "Verif.Sim.Vectorize.c132_values_partial",
    "Verif.Sim.Vectorize.c132_violated",
    "Verif.Sim.Vectorize.c132_violated_empty",
    "Verif.Sim.Vectorize.c132_violated_first",
    "Verif.Sim.Vectorize.c132_violated_gradient"
   ],
   "note": "c132_iff: the amplitudes are right exactly if all values fit the data type of the first one, for every function and every pulse with entries; c132_values_partial and c132_gradient_partial for functions whose values are not of a wider type than the first. Violated by the rectifier 0 if x < 0 else x (c132_violated, c132_violated_first), for gradients (c132_violated_gradient) and for pulses without entries (c132_violated_empty)."
  },
  {
   "property": "C133",
   "status": "partial",
   "theorems": [
    "Verif.Optim.Run.c133_least_squares",
    "Verif.Optim.Run.c133_scalar",
    "Verif.Optim.Run.c133_timeout_least_squares_partial",
    "Verif.Optim.Run.c133_timeout_scalar_partial",
    "Verif.Optim.Run.c133_violated_initial"
   ],
   "note": "c133_scalar and c133_least_squares: final pulse, costs, labels and descent for all algorithms with these two contracts; after a time-out without weights for algorithms which start at the initial pulse (c133_timeout_scalar_partial, c133_timeout_least_squares_partial). Violated: init_parameters is None in every result (c133_violated_initial)."
  },
  {
   "property": "C134",
   "status": "partial",
   "theorems": [
    "Verif.Optim.Run.c134_evaluations",
    "Verif.Optim.Run.c134_iterations_partial",
    "Verif.Optim.Run.c134_jacobian_partial",
    "Verif.Optim.Run.c134_no_jacobian",
    "Verif.Optim.Run.c134_store_partial",
    "Verif.Optim.Run.c134_violated_calls",
    "Verif.Optim.Run.c134_violated_conditions",
    "Verif.Optim.Run.c134_violated_jacobian",
    "Verif.Optim.Run.c134_violated_store",
    "Verif.Optim.Run.c134_wall_time"
   ],
   "note": "c134_wall_time (all methods), c134_evaluations (LeastSquaresOptimizer: max_iterations bounds the evaluations), c134_iterations_partial and c134_store_partial (L-BFGS-B, Nelder-Mead), c134_no_jacobian, c134_jacobian_partial (Jacobians are evaluated if they are to be used: L-BFGS-B and least squares). Violated: c134_violated_conditions and c134_violated_store (all other methods), c134_violated_jacobian (all methods but L-BFGS-B), c134_violated_calls (max_cost_func_calls has no effect at all)."
  },
  {
   "property": "C135",
   "status": "partial",
   "theorems": [
    "Verif.Optim.Run.c135_initial",
    "Verif.Optim.Run.c135_least_squares_partial",
    "Verif.Optim.Run.c135_scalar",
    "Verif.Optim.Run.c135_violated_none",
    "Verif.Optim.Run.c135_violated_order"
   ],
   "note": "c135_scalar (pairs), c135_least_squares_partial (lower bounds first) and c135_initial. Violated for LeastSquaresOptimizer: the default bounds=None raises a TypeError (c135_violated_none), and the documented order, the upper bounds first, raises a ValueError (c135_violated_order), both before the first evaluation. Trusted: the checks of least_squares as in the published source of scipy."
  },
  {
   "property": "C136",
   "status": "proved",
   "theorems": [
    "Verif.Cost.c136_converges",
    "Verif.Cost.c136_deviation",
    "Verif.Cost.c136_exists",
    "Verif.Cost.c136_lipschitz",
    "Verif.Cost.c136_midpoint",
    "Verif.Cost.c136_solution",
    "Verif.Cost.c136_stepped",
    "Verif.Cost.c136_unique"
   ],
   "note": "c136_deviation: error at most the sum of step length times deviation of the controls weighted with the operator norms; c136_stepped (exact), c136_lipschitz (first order), c136_midpoint (second order), c136_unique (uniqueness), c136_solution and c136_converges (existence and convergence for continuous controls), for the method Frechet with the contract of expm."
  },
  {
   "property": "C137",
   "status": "partial",
   "theorems": [
    "Verif.Plot.c137_curves",
    "Verif.Plot.c137_default_partial",
    "Verif.Plot.c137_violated"
   ],
   "note": "c137_curves if every cost function returns as many values as it has labels; c137_default_partial: this holds for the default labels of exactly the classes other than filter functions with several noise operators. Violated (c137_violated): default label of OperatorFilterFunctionInfidelity with two or more noise operators."
  },
  {
   "property": "C138",
   "status": "proved",
   "theorems": [
    "Verif.Cost.c138_exists",
    "Verif.Cost.c138_master"
   ],
   "note": "c138_master: states at all grid times agree with every solution; c138_exists: a solution exists for every initial state. Method expm with the contract of scipy, zero or positive durations."
  },
  {
   "property": "C139",
   "status": "proved",
   "theorems": [
    "Verif.Cost.c139_converges",
    "Verif.Cost.c139_deviation",
    "Verif.Cost.c139_lipschitz",
    "Verif.Cost.c139_solution",
    "Verif.Cost.c139_unique"
   ],
   "note": "c139_deviation for time dependent Hamiltonians and rates at all grid times; c139_lipschitz for constant rates and Lipschitz controls; c139_solution, c139_unique and c139_converges: existence, uniqueness and convergence for continuous controls and rates. Method expm with the contract of scipy; rates used by the solver non-negative."
  },
  {
   "property": "C140",
   "status": "partial",
   "theorems": [
    "Verif.Optim.Run.c140_least_squares_partial",
    "Verif.Optim.Run.c140_limited_partial",
    "Verif.Optim.Run.c140_scalar_partial",
    "Verif.Optim.Run.c140_violated"
   ],
   "note": "c140_least_squares_partial and c140_scalar_partial without runs ended by the time limit, c140_limited_partial with such runs for the LeastSquaresOptimizer without weights. Violated (c140_violated): a finished and an interrupted run of a ScalarMinimizingOptimizer cannot be compared."
  },
  {
   "property": "C141",
   "status": "partial",
   "theorems": [
    "Verif.Cost.c141_modes_partial",
    "Verif.Cost.c141_violated_array",
    "Verif.Cost.c141_violated_list",
    "Verif.Cost.c141_violated_single"
   ],
   "note": "c141_modes_partial: the other modes. Violated: NotImplementedError for durations which are an array, as every solver stores them (c141_violated_array); ValueError for a list of durations and two or more levels (c141_violated_list); for one level the returned derivative is not that of the costs (c141_violated_single)."
  },
  {
   "property": "C142",
   "status": "proved",
   "theorems": [
    "Verif.Sim.c142_costs",
    "Verif.Sim.c142_forward",
    "Verif.Sim.c142_gradient"
   ],
   "note": "c142_forward, c142_costs, c142_gradient."
  },
  {
   "property": "C143",
   "status": "partial",
   "theorems": [
    "Verif.Transfer.c143_filter_partial",
    "Verif.Transfer.c143_range_partial",
    "Verif.Transfer.c143_spacing_partial",
    "Verif.Transfer.c143_violated",
    "Verif.Transfer.c143_violated_default",
    "Verif.Transfer.c143_violated_equal",
    "Verif.Transfer.c143_violated_gradient",
    "Verif.Transfer.c143_violated_stale",
    "Verif.Transfer.c143_violated_unequal"
   ],
   "note": "The class cannot be used: evaluating a pulse raises AttributeError after any sequence of calls (c143_violated), the default bound type rejects all times (c143_violated_default), steps of different durations are accepted (c143_violated_unequal), gradient_chain_rule contracts the wrong axis (c143_violated_gradient). With the missing attribute set by hand the values are those of the filtered signal and stay in range (c143_filter_partial, c143_range_partial), but taken at the durations instead of the times: all equal for steps of equal duration (c143_violated_equal); the matrix is kept when other times are set (c143_violated_stale); c143_spacing_partial says which numbers set_times rejects."
  },
  {
   "property": "C144",
   "status": "proved",
   "theorems": [
    "Verif.Sim.c144_costs",
    "Verif.Sim.c144_error",
    "Verif.Sim.c144_forward",
    "Verif.Sim.c144_gradient",
    "Verif.Sim.c144_leakage",
    "Verif.Sim.c144_states"
   ],
   "note": "Closed system. c144_forward / c144_states: propagators of operators and of kets at all times. c144_costs / c144_gradient: the numbers handed to the optimiser, any number of solvers and cost functions. c144_leakage: cost and gradient zero. c144_error: the bounds with coupling (operator norms)."
  },
  {
   "property": "C145",
   "status": "proved",
   "theorems": [
    "Verif.Sim.c145_crosstalk",
    "Verif.Sim.c145_gates",
    "Verif.Sim.c145_propagators",
    "Verif.Sim.c145_states"
   ],
   "note": "Closed system, operator norms. c145_propagators: all times. c145_gates / c145_states: the infidelities, also on a subspace (map_to_closest_unitary only without subspace). c145_crosstalk: two interacting subsystems, compared with the product formula of C129."
  },
  {
   "property": "C146",
   "status": "partial",
   "theorems": [
    "Verif.Transfer.c146_edges",
    "Verif.Transfer.c146_equal_partial",
    "Verif.Transfer.c146_oversampling_partial",
    "Verif.Transfer.c146_violated_concat",
    "Verif.Transfer.c146_violated_labels",
    "Verif.Transfer.c146_violated_unequal"
   ],
   "note": "c146_edges describes everything drawn for all durations: one figure per control, right heights and right edges, but widths of the first step. With equal time steps the plot is right (c146_equal_partial, and c146_oversampling_partial without assumption on the call). Violated: with different durations the rectangles leave gaps or overlap (c146_violated_unequal), for ConcatenateTF the raw pulse is drawn without its padding (c146_violated_concat), only the last figure is labelled (c146_violated_labels)."
  },
  {
   "property": "C147",
   "status": "proved",
   "theorems": [
    "Verif.Cost.c147_mixing",
    "Verif.Cost.c147_order",
    "Verif.Cost.c147_scale",
    "Verif.Cost.c147_shift",
    "Verif.Cost.c147_super"
   ],
   "note": "c147_mixing, c147_scale, c147_shift, c147_order, c147_super. (a) and (c) without prefactor function (all rates one), as the number of operators changes or the Hamiltonian would depend on the pulse otherwise. No contract of the numerical routines is needed: the generators and directions handed to them are equal."
  },
  {
   "property": "C148",
   "status": "proved",
   "theorems": [
    "Verif.Cost.c148_gates",
    "Verif.Cost.c148_gradient",
    "Verif.Cost.c148_marginal",
    "Verif.Cost.c148_marginal_second",
    "Verif.Cost.c148_product_states"
   ],
   "note": "c148_product_states, c148_marginal, c148_marginal_second, c148_gates, c148_gradient. Dissipation by Lindblad operators, with or without prefactor function of the amplitudes and transferred parameters of the same time step; scipy.linalg.expm (and expm_frechet for the gradient) exact. The reduced states require the other subsystem to have Hermitian Hamiltonians and the identity as initial operator; the gradient requires the supplied derivatives of the prefactors to be right."
  },
  {
   "property": "C149",
   "status": "proved",
   "theorems": [
    "Verif.Cost.c149_costs",
    "Verif.Cost.c149_forward",
    "Verif.Cost.c149_gradient",
    "Verif.Cost.c149_states"
   ],
   "note": "c149_forward, c149_states, c149_costs, c149_gradient. Dissipation by Lindblad operators, with or without prefactor function of the amplitudes and transferred parameters of the same time step; scipy.linalg.expm (and expm_frechet for the gradient) exact. Whole space (no computational_states)."
  },
  {
   "property": "C150",
   "status": "proved",
   "theorems": [
    "Verif.Cost.c150_basis",
    "Verif.Cost.c150_leakage",
    "Verif.Cost.c150_state"
   ],
   "note": "c150_basis, c150_state, c150_leakage. Initial operator the identity; scipy.linalg.expm exact. The state infidelity is stated for the density matrix computed by the forward propagator (the class StateInfidelity itself is for kets)."
  },
  {
   "property": "C151",
   "status": "proved",
   "theorems": [
    "Verif.Cost.c151_not_hidden",
    "Verif.Cost.c151_repaired",
    "Verif.Cost.c151_repeated",
    "Verif.Cost.c151_sequence"
   ],
   "note": "c151_sequence, c151_repeated, c151_not_hidden; c151_repaired is the witness that the order matters. Prefactor function computed for each time step from the values of this step; scipy.linalg.expm exact."
  },
  {
   "property": "C152",
   "status": "proved",
   "theorems": [
    "Verif.Cost.c152_amplitudes",
    "Verif.Cost.c152_crosstalk",
    "Verif.Cost.c152_dissipation",
    "Verif.Cost.c152_infidelity",
    "Verif.Cost.c152_observables"
   ],
   "note": "c152_infidelity, c152_observables, c152_amplitudes (constant rates), c152_dissipation, c152_crosstalk. Initial operator the identity; scipy.linalg.expm exact."
  },
  {
   "property": "C153",
   "status": "proved",
   "theorems": [
    "Verif.Cost.c153_all_pulses",
    "Verif.Cost.c153_imperfect",
    "Verif.Cost.c153_limit",
    "Verif.Cost.c153_sharp",
    "Verif.Cost.c153_spread",
    "Verif.Cost.c153_subspace"
   ],
   "note": "c153_limit, c153_all_pulses, c153_imperfect, c153_spread, c153_sharp, c153_subspace. Initial operator the identity; scipy.linalg.expm exact."
  },
  {
   "property": "C154",
   "status": "proved",
   "theorems": [
    "Verif.Sim.c154_attained",
    "Verif.Sim.c154_idle",
    "Verif.Sim.c154_neglect",
    "Verif.Sim.c154_not_hidden",
    "Verif.Sim.c154_refocused",
    "Verif.Sim.c154_repeated",
    "Verif.Sim.c154_sequence"
   ],
   "note": "c154_sequence, c154_repeated, c154_not_hidden, c154_neglect, c154_idle, c154_attained, c154_refocused. Initial operator the identity, amplitude and transfer function the identity; map_to_closest_unitary off or no computational subspace; either exponential method."
  },
  {
   "property": "C155",
   "status": "proved",
   "theorems": [
    "Verif.Sim.c155_attained",
    "Verif.Sim.c155_noise",
    "Verif.Sim.c155_not_hidden",
    "Verif.Sim.c155_repeated",
    "Verif.Sim.c155_rotations",
    "Verif.Sim.c155_sequence"
   ],
   "note": "c155_sequence, c155_repeated, c155_not_hidden, c155_noise, c155_rotations, c155_attained. Initial operator the identity, amplitude and transfer function the identity; either exponential method."
  },
  {
   "property": "C156",
   "status": "proved",
   "theorems": [
    "Verif.Sim.c156_attained",
    "Verif.Sim.c156_conserved",
    "Verif.Sim.c156_conserved_attained",
    "Verif.Sim.c156_gate",
    "Verif.Sim.c156_not_hidden",
    "Verif.Sim.c156_sequence",
    "Verif.Sim.c156_speed_limit"
   ],
   "note": "c156_sequence, c156_not_hidden, c156_gate, c156_speed_limit, c156_conserved, c156_attained, c156_conserved_attained. Amplitude and transfer function the identity; either exponential method; the gate on a solver with initial operator the identity."
  },
  {
   "property": "C157",
   "status": "proved",
   "theorems": [
    "Verif.Sim.c157_attained",
    "Verif.Sim.c157_gate",
    "Verif.Sim.c157_gate_on_state",
    "Verif.Sim.c157_leakage",
    "Verif.Sim.c157_neglect",
    "Verif.Sim.c157_sequence",
    "Verif.Sim.c157_state"
   ],
   "note": "c157_gate, c157_leakage, c157_state, c157_neglect, c157_sequence, c157_gate_on_state, c157_attained. Amplitude and transfer function the identity; either exponential method; solver of the gates with initial operator the identity; one process, or several without derivatives."
  },
  {
   "property": "C158",
   "status": "proved",
   "theorems": [
    "Verif.Sim.c158_gradient",
    "Verif.Sim.c158_infidelity",
    "Verif.Sim.c158_leakage",
    "Verif.Sim.c158_leakage_gradient",
    "Verif.Sim.c158_palindrome",
    "Verif.Sim.c158_propagators",
    "Verif.Sim.c158_state_gradient",
    "Verif.Sim.c158_states",
    "Verif.Sim.c158_symmetric"
   ],
   "note": "Solvers with identity transfer and amplitude function (`SPar.bare`); other transfer functions act before the amplitudes considered here."
  },
  {
   "property": "C159",
   "status": "proved",
   "theorems": [
    "Verif.Sim.c159_leakage",
    "Verif.Sim.c159_quasi_static",
    "Verif.Sim.c159_state"
   ],
   "note": "Random numbers as an idealised source (`WhiteNoise`: independent standard normal variables)."
  },
  {
   "property": "C160",
   "status": "proved",
   "theorems": [
    "Verif.Sim.c160_conserved",
    "Verif.Sim.c160_noise",
    "Verif.Sim.c160_open",
    "Verif.Sim.c160_operation",
    "Verif.Sim.c160_state"
   ],
   "note": "Lower bounds for targets which only partly violate a conservation law are C125 and C156."
  },
  {
   "property": "C161",
   "status": "proved",
   "theorems": [
    "Verif.Sim.c161_basis",
    "Verif.Sim.c161_basis_gradient",
    "Verif.Sim.c161_basis_state",
    "Verif.Sim.c161_batches",
    "Verif.Sim.c161_correlated",
    "Verif.Sim.c161_costs",
    "Verif.Sim.c161_gradient",
    "Verif.Sim.c161_operators",
    "Verif.Sim.c161_order",
    "Verif.Sim.c161_permuted",
    "Verif.Sim.c161_scaled",
    "Verif.Sim.c161_state_costs",
    "Verif.Sim.c161_state_traces",
    "Verif.Sim.c161_units",
    "Verif.Sim.c161_units_gradient"
   ],
   "note": "The same for solvers without noise is C104, for dissipation C147 and C149."
  },
  {
   "property": "C162",
   "status": "proved",
   "theorems": [
    "Verif.Sim.c162_gradient",
    "Verif.Sim.c162_infidelity",
    "Verif.Sim.c162_leakage",
    "Verif.Sim.c162_states",
    "Verif.Sim.c162_static",
    "Verif.Sim.c162_static_gradient"
   ],
   "note": "The same without noise is C158."
  },
  {
   "property": "C163",
   "status": "proved",
   "theorems": [
    "Verif.Sim.c163_gradient",
    "Verif.Sim.c163_infidelity",
    "Verif.Sim.c163_leakage",
    "Verif.Sim.c163_states"
   ],
   "note": "The same without noise, and the effect of weak coupling to the other levels, is C144."
  },
  {
   "property": "C164",
   "status": "proved",
   "theorems": [
    "Verif.Sim.c164_gradient",
    "Verif.Sim.c164_infidelity",
    "Verif.Sim.c164_quiet"
   ],
   "note": "The same without noise is C129. If both subsystems are noisy, the average is taken over the products of the fidelities, and only the bounds are proved."
  },
  {
   "property": "C165",
   "status": "proved",
   "theorems": [
    "Verif.Sim.c165_infidelity",
    "Verif.Sim.c165_leakage",
    "Verif.Sim.c165_neglected",
    "Verif.Sim.c165_states",
    "Verif.Sim.c165_states_neglected"
   ],
   "note": "The same without noise is C145; the comparison with the costs without noise is C157."
  },
  {
   "property": "C166",
   "status": "proved",
   "theorems": [
    "Verif.Sim.c166_area",
    "Verif.Sim.c166_gradient",
    "Verif.Sim.c166_value"
   ],
   "note": ""
  },
  {
   "property": "C167",
   "status": "partial",
   "theorems": [
    "Verif.Cost.c167_normal_partial",
    "Verif.Cost.c167_violated"
   ],
   "note": "c167_violated: the code returns states with negative probabilities for a decaying qubit; c167_normal_partial: correct if the generators are normal and have no repeated eigenvalues. Repeated eigenvalues of a normal generator depend on the basis chosen by eig."
  },
  {
   "property": "C168",
   "status": "partial",
   "theorems": [
    "Verif.Cost.c168_partial",
    "Verif.Cost.c168_violated"
   ],
   "note": "c168_violated: for a three level system the infidelity is stationary but the gradient is -352/225; c168_partial: correct at pulses where eigh returns Hermitian eigenvector matrices. Missing: other eigenvector matrices, for which the code is wrong."
  },
  {
   "property": "C169",
   "status": "proved",
   "theorems": [
    "Verif.Sim.c169_gradient",
    "Verif.Sim.c169_infidelity",
    "Verif.Sim.c169_leakage",
    "Verif.Sim.c169_states"
   ],
   "note": "every number of parts (the same for every step), parts of different durations; the gradient is proved for processes=1, exact derivatives and the default exponential method."
  },
  {
   "property": "C170",
   "status": "proved",
   "theorems": [
    "Verif.Sim.c170_costs",
    "Verif.Sim.c170_gradient"
   ],
   "note": "parts of different durations, the same number of parts for every step; the default exponential method without approximate derivatives."
  },
  {
   "property": "C171",
   "status": "proved",
   "theorems": [
    "Verif.Sim.c171_costs",
    "Verif.Sim.c171_error",
    "Verif.Sim.c171_same_traces",
    "Verif.Sim.c171_state_costs",
    "Verif.Sim.c171_traces"
   ],
   "note": "that the gradient neglects the dependence of the noise on the pulse is C95."
  },
  {
   "property": "C172",
   "status": "proved",
   "theorems": [
    "Verif.Sim.c172_gradient",
    "Verif.Sim.c172_infidelity",
    "Verif.Sim.c172_leakage",
    "Verif.Sim.c172_states"
   ],
   "note": "the gradient is proved for processes=1, exact derivatives and the default exponential method; without noise C142."
  },
  {
   "property": "C173",
   "status": "proved",
   "theorems": [
    "Verif.Sim.c173_costs",
    "Verif.Sim.c173_forward",
    "Verif.Sim.c173_gradient"
   ],
   "note": "the default exponential method; without dissipation C142, with noise C172."
  },
  {
   "property": "C174",
   "status": "proved",
   "theorems": [
    "Verif.Sim.c174_gradient",
    "Verif.Sim.c174_infidelity",
    "Verif.Sim.c174_inverse",
    "Verif.Sim.c174_inverse_gradient",
    "Verif.Sim.c174_inverse_infidelity",
    "Verif.Sim.c174_leakage",
    "Verif.Sim.c174_propagators",
    "Verif.Sim.c174_states"
   ],
   "note": "map_to_closest_unitary only without computational states; the gradients with the default exponential method; transposed Hamiltonians C158."
  },
  {
   "property": "C175",
   "status": "proved",
   "theorems": [
    "Verif.Sim.c175_costs",
    "Verif.Sim.c175_gradient",
    "Verif.Sim.c175_propagators"
   ],
   "note": "the default exponential method; without dissipation C174."
  },
  {
   "property": "C176",
   "status": "proved",
   "theorems": [
    "Verif.Sim.c176_gradient",
    "Verif.Sim.c176_infidelity",
    "Verif.Sim.c176_leakage",
    "Verif.Sim.c176_states"
   ],
   "note": "map_to_closest_unitary only without computational states; the default exponential method; without noise C174."
  },
  {
   "property": "C177",
   "status": "proved",
   "theorems": [
    "Verif.Sim.c177_gradient",
    "Verif.Sim.c177_infidelity",
    "Verif.Sim.c177_leakage",
    "Verif.Sim.c177_opposite",
    "Verif.Sim.c177_opposite_gradient",
    "Verif.Sim.c177_states"
   ],
   "note": "map_to_closest_unitary only without computational states; states without computational states; the default exponential method; without noise C174."
  },
  {
   "property": "C178",
   "status": "proved",
   "theorems": [
    "Verif.Sim.c178_noise",
    "Verif.Sim.c178_open"
   ],
   "note": "Extends C160 (closed systems and the value of the noise infidelity). Systematic errors not neglected; map_to_closest_unitary only without computational states; the default exponential method."
  },
  {
   "property": "C179",
   "status": "proved",
   "theorems": [
    "Verif.Cost.c179_every_state",
    "Verif.Cost.c179_factor",
    "Verif.Cost.c179_sequence",
    "Verif.Cost.c179_two_pulses"
   ],
   "note": "The closed system is C155. The default exponential method; the prefactor function acts on each time step separately (as in C128, C151)."
  },
  {
   "property": "C180",
   "status": "proved",
   "theorems": [
    "Verif.Sim.c180_gradient",
    "Verif.Sim.c180_infidelity",
    "Verif.Sim.c180_leakage",
    "Verif.Sim.c180_states"
   ],
   "note": "The closed system is C144, the system with noise C163. Both solvers start with the identity; the default exponential method; the prefactor function acts on each time step separately (as in C128)."
  },
  {
   "property": "C181",
   "status": "proved",
   "theorems": [
    "Verif.Cost.c181_distinguish",
    "Verif.Cost.c181_lost"
   ],
   "note": "C127 states the corresponding fact for the Hilbert-Schmidt distance and normal Lindblad operators only. The default exponential method; the prefactor function acts on each time step separately (as in C128)."
  }
 ]
}