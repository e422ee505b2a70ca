{"id": "C01", "title": "Time grid has the promised number of samples", "statement": "After TransferFunction.set_times(y_times), for every supported bound_type the number of transferred time steps reported by the object equals the length of its x_times array, and equals oversampling*num_y plus the number of padding elements at both ends as reported by num_padding_elements; an unsupported bound_type raises ValueError.", "quantifier": "every list of time steps, every oversampling >= 1, every bound type and padding size", "why_tests_cant": "the relation must hold for every grid length / oversampling / padding combination, tests fix a few", "anchors": ["qopt/transfer_function.py:TransferFunction.set_times", "qopt/transfer_function.py:TransferFunction.num_padding_elements"]}
{"id": "C02", "title": "Oversampling preserves durations", "statement": "Without padding the transferred time steps add up to the total duration of the input time steps, and each block of `oversampling` consecutive transferred steps adds up to the input step it refines; with padding the total grows by exactly the padding count times the step width of the first/last refined step (bound types 'n', 'x', 'right_n').", "quantifier": "every list of real time steps, every oversampling >= 1, every bound type and padding size", "why_tests_cant": "a statement about sums over unboundedly many grids", "anchors": ["qopt/transfer_function.py:TransferFunction.set_times"]}
{"id": "C03", "title": "Absolute times round-trip", "statement": "set_absolute_times applied to the cumulative times of a step list (starting anywhere) configures exactly the grid that set_times would configure from the steps; unsorted absolute times are rejected with an exception and leave the configured grid as it was.", "quantifier": "every start time and every list of non-negative steps; every unsorted list", "why_tests_cant": "round-trip over all lists, including the reject branch", "anchors": ["qopt/transfer_function.py:TransferFunction.set_absolute_times", "qopt/transfer_function.py:TransferFunction.set_times"]}
{"id": "C04", "title": "OversamplingTF output is the piecewise-constant refinement", "statement": "The output of OversamplingTF has exactly num_x rows; row pad_start + i*oversampling + j equals input row i, and all padding rows are zero.", "quantifier": "every input array, oversampling and bound type", "why_tests_cant": "index arithmetic for every position", "anchors": ["qopt/transfer_function.py:OversamplingTF.__call__"]}
{"id": "C05", "title": "OversamplingTF gradient is the adjoint of its call", "statement": "gradient_chain_rule of OversamplingTF is the exact transpose of the linear map computed by __call__: for every output gradient g and every pulse y, the pairing of g with the transferred y equals the pairing of gradient_chain_rule(g) with y, for every cost value separately.", "quantifier": "every pulse, gradient array, oversampling and padding", "why_tests_cant": "a test compares finitely many random arrays with tolerance", "anchors": ["qopt/transfer_function.py:OversamplingTF.__call__", "qopt/transfer_function.py:OversamplingTF.gradient_chain_rule"]}
{"id": "C06", "title": "Matrix transfer functions: gradient is the adjoint of the call", "statement": "For any transfer tensor and any offset a MatrixTF call is affine in the pulse and its gradient_chain_rule is the transpose of the linear part, independently for each control channel; no channel influences another.", "quantifier": "every transfer tensor, offset, pulse and gradient", "why_tests_cant": "holds for all tensors and sizes", "anchors": ["qopt/transfer_function.py:MatrixTF.__call__", "qopt/transfer_function.py:MatrixTF.gradient_chain_rule"]}
{"id": "C07", "title": "OversamplingMTF and OversamplingTF agree", "statement": "The matrix implementation and the direct implementation of the oversampling transfer function return the same transferred pulse and the same gradient for the same configuration.", "quantifier": "every pulse, gradient, oversampling, bound type", "why_tests_cant": "equivalence of two implementations on all inputs", "anchors": ["qopt/transfer_function.py:OversamplingMTF._calculate_transfer_matrix", "qopt/transfer_function.py:OversamplingTF"]}
{"id": "C08", "title": "Concatenated transfer functions compose", "statement": "ConcatenateTF(tf1, tf2) transfers a pulse as tf2 after tf1, its gradient is tf1's gradient after tf2's, the composite gradient is the adjoint of the composite call whenever both parts have that property, concatenation is associative in call and gradient, and the time grid of the composite is tf2's grid refined from tf1's output grid.", "quantifier": "every pair/triple of transfer functions, every pulse", "why_tests_cant": "closure under arbitrary nesting", "anchors": ["qopt/transfer_function.py:ConcatenateTF"]}
{"id": "C09", "title": "Parallel transfer functions act independently", "statement": "ParallelTF(tf1, tf2) applies tf1 to the first num_ctrls of tf1 columns and tf2 to the remaining ones: changing a column of one part never changes an output column of the other, and the gradient splits the same way and is adjoint when both parts are.", "quantifier": "every pair of transfer functions, every pulse and gradient", "why_tests_cant": "non-interference for all inputs", "anchors": ["qopt/transfer_function.py:ParallelTF"]}
{"id": "C10", "title": "A matrix transfer function follows a change of the time grid", "statement": "After set_times on a matrix transfer function that was already used, the next call uses the transfer matrix belonging to the new time grid.", "quantifier": "every sequence of set_times and call operations", "why_tests_cant": "history dependence: needs all operation orders", "anchors": ["qopt/transfer_function.py:MatrixTF.transfer_matrix", "qopt/transfer_function.py:TransferFunction.set_times", "qopt/transfer_function.py:ExponentialMTF._calculate_transfer_matrix"]}
{"id": "C11", "title": "ConcatenateMTF behaves like applying both parts", "statement": "A ConcatenateMTF that was given its times can be called and returns what applying the first and then the second matrix transfer function returns (including offsets); its reported transfer matrix is the per-channel product of the parts.", "quantifier": "every pair of matrix transfer functions, every pulse", "why_tests_cant": "equivalence for all tensors and offsets", "anchors": ["qopt/transfer_function.py:ConcatenateMTF"]}
{"id": "C12", "title": "Offsets survive composition", "statement": "The offset contributed by the parts of a concatenated/parallel transfer function appears in the composite output exactly as it would when the parts are applied one after the other / side by side.", "quantifier": "every offset and tensor", "why_tests_cant": "affine algebra over all inputs", "anchors": ["qopt/transfer_function.py:ConcatenateTF", "qopt/transfer_function.py:ConcatenateMTF", "qopt/transfer_function.py:ParallelMTF"]}
{"id": "C13", "title": "Convolution gradient is the adjoint of the convolution", "statement": "gradient_chain_rule of the convolution transfer function is the adjoint of its call for every kernel and every border mode.", "quantifier": "every kernel, pulse length, border mode", "why_tests_cant": "kernel symmetry and border effects vary over an infinite family", "anchors": ["qopt/transfer_function.py:ConvolutionTF.__call__", "qopt/transfer_function.py:ConvolutionTF.gradient_chain_rule"]}
{"id": "C14", "title": "Exponential transfer function never overshoots and is causal", "statement": "Each sample of the exponential-saturation transfer function is a convex combination of the current and the previous pulse value (0 before the first), moves monotonically from the previous towards the current value inside a time step, stays within any interval containing 0 and all pulse values, does not depend on later pulse values, and decays towards 0 in the end padding; the start padding is 0.", "quantifier": "every rise time > 0, step width > 0, pulse, oversampling and padding with at least two steps", "why_tests_cant": "statement about all pulses and parameters over the reals", "anchors": ["qopt/transfer_function.py:ExponentialMTF._calculate_transfer_matrix", "qopt/transfer_function.py:exp_saturation"]}
{"id": "C15", "title": "Input validation happens before evaluation", "statement": "_check-guarded calls: a call on a transfer function without times raises RuntimeError, a non-float pulse TypeError, a pulse that is not 2-D or has the wrong number of rows or controls IndexError, in this precedence, and otherwise a result of shape (num_x, num_ctrls) is returned.", "quantifier": "every combination of dtype, shape and configuration", "why_tests_cant": "decision logic over all combinations", "anchors": ["qopt/transfer_function.py:TransferFunction._check_dimensions_datatype"]}
{"id": "C16", "title": "Vectorisation round-trips and is column-wise", "statement": "ket_vectorize_density_matrix followed by convert_ket_vectorized_density_matrix_to_square returns the original matrix, the vector entry at index j*d+i is entry (i,j), and in the other direction squaring a length-d*d ket and vectorising it returns the ket; non-square matrices and non-kets are rejected.", "quantifier": "every dimension and matrix", "why_tests_cant": "index arithmetic for all dimensions", "anchors": ["qopt/matrix.py:ket_vectorize_density_matrix", "qopt/matrix.py:convert_ket_vectorized_density_matrix_to_square"]}
{"id": "C17", "title": "Super-operator of a unitary implements conjugation", "statement": "convert_unitary_to_super_operator(U) applied to the vectorised density matrix equals the vectorisation of U rho U^dagger; it is multiplicative, maps the identity to the identity, commutes with dag, and is insensitive to a global phase of U.", "quantifier": "every dimension and all complex matrices U, rho", "why_tests_cant": "identity over all matrices", "anchors": ["qopt/matrix.py:convert_unitary_to_super_operator", "qopt/matrix.py:ket_vectorize_density_matrix"]}
{"id": "C18", "title": "Partial trace is a partial trace", "statement": "ptrace keeps the total trace, is linear, satisfies Tr_A(A (x) B)=tr(A) B and Tr_B(A (x) B)=tr(B) A, does not depend on the order in which the removed subsystems are listed, and rejects dimension mismatches.", "quantifier": "every list of subsystem dimensions, every removed subset, every matrix", "why_tests_cant": "arbitrary number of subsystems and dimensions", "anchors": ["qopt/matrix.py:DenseOperator.ptrace"]}
{"id": "C19", "title": "Spectral exponential equals the matrix exponential for skew-Hermitian input", "statement": "With is_skew_hermitian=True and a correct eigen-decomposition, exp(tau, method='spectral') equals the matrix exponential of tau*A and is unitary for real tau; semigroup law exp(s+t)=exp(s)exp(t).", "quantifier": "every skew-Hermitian matrix, every real tau, every eigenbasis returned by eigh", "why_tests_cant": "holds for every matrix/eigenbasis", "anchors": ["qopt/matrix.py:DenseOperator._exp_diagonalize", "qopt/matrix.py:DenseOperator.exp"]}
{"id": "C20", "title": "Spectral exponential is basis independent for general matrices", "statement": "exp(method='spectral') without is_skew_hermitian returns the matrix exponential for every diagonalisable matrix.", "quantifier": "every diagonalisable matrix and every eigenbasis", "why_tests_cant": "depends on which eigenvectors LAPACK returns", "anchors": ["qopt/matrix.py:DenseOperator._exp_diagonalize"]}
{"id": "C21", "title": "Spectral Frechet derivative is the derivative of the exponential", "statement": "dexp(method='spectral', is_skew_hermitian=True) returns the directional derivative of exp.", "quantifier": "every skew-Hermitian matrix with non-degenerate spectrum, direction and tau", "why_tests_cant": "a test with real symmetric eigenvectors cannot distinguish transformation direction", "anchors": ["qopt/matrix.py:DenseOperator._dexp_diagonalization", "qopt/matrix.py:DenseOperator.dexp"]}
{"id": "C22", "title": "Taylor derivatives are the derivatives of the Taylor exponentials", "statement": "For 'first_order', 'second_order' and 'third_order' the matrix returned by dexp is exactly the derivative, in the direction given, of the matrix returned by exp with the same method.", "quantifier": "every matrix, direction and tau", "why_tests_cant": "derivative identity over all non-commuting matrices", "anchors": ["qopt/matrix.py:DenseOperator.exp", "qopt/matrix.py:DenseOperator.dexp"]}
{"id": "C23", "title": "dexp with compute_expm returns the propagator of the same method", "statement": "The propagator returned by dexp(compute_expm=True, method=m) equals exp(method=m).", "quantifier": "every method, matrix, direction", "why_tests_cant": "all methods and matrices", "anchors": ["qopt/matrix.py:DenseOperator.dexp", "qopt/matrix.py:DenseOperator.exp"]}
{"id": "C24", "title": "closest_unitary returns a nearest unitary", "statement": "closest_unitary(A) is unitary and no unitary has a smaller distance to A, in the operator norm or in the Frobenius norm; a unitary A is returned unchanged.", "quantifier": "every square matrix and every singular value decomposition of it", "why_tests_cant": "optimality over all unitaries", "anchors": ["qopt/matrix.py:closest_unitary"]}
{"id": "C25", "title": "Operator arithmetic does not modify its operands", "statement": "a+b, a-b, a*b, a/z, products and sums with scalars, dag, conj, transpose, kron, identity_like, ptrace and truncate_to_subspace with a list leave the data of their operands unchanged and return an object not sharing memory with them; only the in-place operators, assignments to elements and the methods called with do_copy=False change their left operand. Wrapping an array or an operator shares its memory, truncate_to_subspace(None) returns the object itself.", "quantifier": "every sequence of operator operations on a heap of operators, objects known under several names", "why_tests_cant": "aliasing across arbitrary histories", "anchors": ["qopt/matrix.py:DenseOperator.__init__", "qopt/matrix.py:DenseOperator.copy", "qopt/matrix.py:DenseOperator.__imul__", "qopt/matrix.py:OperatorMatrix.__add__", "qopt/matrix.py:DenseOperator.__truediv__", "qopt/matrix.py:DenseOperator.__setitem__", "qopt/matrix.py:DenseOperator.ptrace", "qopt/matrix.py:DenseOperator.truncate_to_subspace"]}
{"id": "C26", "title": "Subspace truncation selects the requested entries", "statement": "truncate_to_subspace(indices) returns the submatrix of the rows and columns listed, for kets the rows, for bras the columns; None returns the operator; truncating twice equals truncating once with composed indices; truncation commutes with dag and is linear.", "quantifier": "every square matrix, bra and ket and every index list, including negative indices (truncating a bra or ket twice: second index list not empty and without repetition)", "why_tests_cant": "all index lists/shapes", "anchors": ["qopt/matrix.py:DenseOperator.truncate_to_subspace"]}
{"id": "C27", "title": "Forward and reversed propagators fit together", "statement": "With n time steps the solver returns n propagators, n+1 forward and n+1 reversed propagators; forward[i+1] is propagator i times forward[i], forward[0] is the initial state, reversed[0] the identity, and for every i the reversed propagator n-i times the forward propagator i equals the final forward propagator.", "quantifier": "every number of time steps, every propagator sequence, every initial state", "why_tests_cant": "for all lengths and all split points", "anchors": ["qopt/solver_algorithms.py:Solver._compute_forward_propagation", "qopt/solver_algorithms.py:Solver._compute_reversed_propagation"]}
{"id": "C28", "title": "Schroedinger evolution is unitary", "statement": "For Hermitian drift and control Hamiltonians and real amplitudes every propagator and every reversed propagator is unitary, and forward propagation preserves inner products of the initial states.", "quantifier": "every Hermitian Hamiltonian set, every real pulse and every time grid; exponential_method 'Frechet' (the default) or 'spectral' with is_skew_hermitian", "why_tests_cant": "all inputs over the reals", "anchors": ["qopt/solver_algorithms.py:SchroedingerSolver._compute_dyn_gen", "qopt/solver_algorithms.py:SchroedingerSolver._compute_propagation"]}
{"id": "C29", "title": "Cached results always belong to the current parameters", "statement": "After any sequence of calls to set_optimization_parameters (none of which raised) and reads of propagators, forward/reversed propagators and derivatives, every value read equals the value a freshly constructed solver would compute for the last parameters set.", "quantifier": "every finite history of setter calls and reads in any order; with reads of derivatives only for solver options for which the results do not depend on the order of the reads (as for the defaults)", "why_tests_cant": "cache coherence over all interleavings", "anchors": ["qopt/solver_algorithms.py:Solver.set_optimization_parameters", "qopt/solver_algorithms.py:Solver.reset_cached_propagators", "qopt/solver_algorithms.py:Solver.propagators", "qopt/solver_algorithms.py:SchroedingerSolver.set_optimization_parameters"]}
{"id": "C30", "title": "A rejected pulse does not corrupt the solver", "statement": "If set_optimization_parameters raises, the solver afterwards either raises again for the same pulse or reports results for it; it never silently keeps older amplitudes for a pulse it accepted.", "quantifier": "every history containing rejected pulses", "why_tests_cant": "failure-then-retry histories", "anchors": ["qopt/solver_algorithms.py:Solver.set_optimization_parameters"]}
{"id": "C31", "title": "Changing the time grid invalidates derived amplitudes", "statement": "After Solver.set_times, setting a pulse yields the results of a freshly constructed solver on the new time grid.", "quantifier": "every history of set_times and set_optimization_parameters", "why_tests_cant": "history dependence", "anchors": ["qopt/solver_algorithms.py:Solver.set_times", "qopt/solver_algorithms.py:Solver.set_optimization_parameters"]}
{"id": "C32", "title": "Propagator derivatives are indexed [control][time]", "statement": "frechet_deriv_propagators[c][t] is the derivative of propagator t with respect to control amplitude c, for the exact as well as for the 'grape' method.", "quantifier": "every number of controls and time steps", "why_tests_cant": "index-order agreement for every shape", "anchors": ["qopt/solver_algorithms.py:SchroedingerSolver._compute_propagation", "qopt/solver_algorithms.py:SchroedingerSolver._compute_propagation_derivatives"]}
{"id": "C33", "title": "Monte Carlo without noise reproduces the noiseless solver", "statement": "With all-zero noise samples every noise trace of the Monte Carlo solver has the propagators, forward and reversed propagators of the noiseless solver.", "quantifier": "every number of traces, operators, time steps; every exponential method; no noise amplitude function", "why_tests_cant": "all configurations", "anchors": ["qopt/solver_algorithms.py:SchroedingerSMonteCarlo._compute_dyn_gen_noise", "qopt/solver_algorithms.py:SchroedingerSMonteCarlo._compute_propagation"]}
{"id": "C34", "title": "Each noise trace uses its own samples", "statement": "Noise trace k evolves at time step t under the noiseless generator plus -i times the sum over noise operators of sample[operator][k][t] times that operator; changing samples of another trace does not affect trace k.", "quantifier": "every noise sample array; no noise amplitude function", "why_tests_cant": "non-interference for all arrays", "anchors": ["qopt/solver_algorithms.py:SchroedingerSMonteCarlo._compute_dyn_gen_noise"]}
{"id": "C35", "title": "Parallel and serial propagation agree", "statement": "The Monte Carlo solver returns the same noise propagators for processes=1, any number of processes and None, and rejects other values and derivative requests in parallel mode.", "quantifier": "every number of processes and every generator list", "why_tests_cant": "schedule independence of the result", "anchors": ["qopt/solver_algorithms.py:SchroedingerSMonteCarlo._compute_propagation", "qopt/solver_algorithms.py:_compute_matrix_exponentials"]}
{"id": "C36", "title": "Noise traces must cover the whole pulse", "statement": "If the noise generator supplies fewer samples per trace than there are transferred time steps the Monte Carlo solver reports it.", "quantifier": "every mismatch between sample count and time steps", "why_tests_cant": "all length combinations", "anchors": ["qopt/solver_algorithms.py:SchroedingerSMonteCarlo._compute_dyn_gen_noise"]}
{"id": "C37", "title": "Control noise acts through the amplitude function", "statement": "With control noise the generator of trace k at time t is the noiseless generator evaluated at the transferred parameters plus the noise, for any amplitude function.", "quantifier": "every amplitude function, parameters, noise", "why_tests_cant": "all functions", "anchors": ["qopt/solver_algorithms.py:SchroedingerSMCControlNoise"]}
{"id": "C38", "title": "Lindblad generator is the master equation", "statement": "The generator built by the Lindblad solver, applied to a vectorised density matrix, is the vectorisation of -i[H,rho] + sum_k (L_k rho L_k^dagger - 1/2 {L_k^dagger L_k, rho}).", "quantifier": "every dimension, every Hermitian Hamiltonian, every set of Lindblad operators, every rho", "why_tests_cant": "matrix identity for all inputs", "anchors": ["qopt/solver_algorithms.py:LindbladSolver._calc_diss_sup_op", "qopt/solver_algorithms.py:LindbladSolver._compute_dyn_gen"]}
{"id": "C39", "title": "Lindblad evolution preserves trace and Hermiticity", "statement": "The propagators of the Lindblad solver map trace-one Hermitian matrices to trace-one Hermitian matrices.", "quantifier": "every set of Lindblad operators, prefactors, pulse and grid; exponential_method 'Frechet', the default; the identity (the default) as initial operator for the forward propagators", "why_tests_cant": "all inputs", "anchors": ["qopt/solver_algorithms.py:LindbladSolver._compute_dyn_gen", "qopt/solver_algorithms.py:LindbladSolver._calc_diss_sup_op"]}
{"id": "C40", "title": "Lindblad solver without dissipation reproduces the Schroedinger solver", "statement": "Without dissipation the super-operator propagators are conj(U) (x) U of the Schroedinger propagators, for each step and for the forward propagation.", "quantifier": "every Hamiltonian, pulse, grid; exponential_method 'Frechet', the default; the identity (the default) as initial operator for the forward propagators", "why_tests_cant": "exponential identity over all matrices", "anchors": ["qopt/solver_algorithms.py:LindbladSolver._compute_dyn_gen", "qopt/matrix.py:convert_unitary_to_super_operator"]}
{"id": "C41", "title": "Derivative directions are the derivatives of the generator", "statement": "The direction matrices passed to the exponential derivative are the derivatives of the dynamical generator with respect to each control amplitude (Schroedinger and Lindblad).", "quantifier": "every Hamiltonian set and pulse", "why_tests_cant": "all matrices; tests use symmetric ones", "anchors": ["qopt/solver_algorithms.py:SchroedingerSolver._compute_derivative_directions", "qopt/solver_algorithms.py:LindbladSolver._compute_derivative_directions"]}
{"id": "C42", "title": "Constructing or using a solver does not modify the caller's operators", "statement": "The dissipation super operators handed to the Lindblad solver are not modified, and computing twice gives the same generator.", "quantifier": "every list of super operators, every number of recomputations", "why_tests_cant": "aliasing and accumulation over histories", "anchors": ["qopt/solver_algorithms.py:LindbladSolver._calc_diss_sup_op"]}
{"id": "C43", "title": "Entanglement fidelity is a fidelity", "statement": "For unitary target and propagator the entanglement fidelity lies in [0,1], is 1 exactly when they agree up to a global phase, is invariant under global phases and under simultaneous left/right multiplication by unitaries, and symmetric in its arguments.", "quantifier": "every dimension and all unitaries", "why_tests_cant": "inequality and equality case over all unitaries", "anchors": ["qopt/cost_functions.py:entanglement_fidelity"]}
{"id": "C44", "title": "Gradient of the operation infidelity is its derivative", "statement": "OperationInfidelity.grad()[t,c] is the partial derivative of costs() with respect to amplitude c in time step t, with and without computational states.", "quantifier": "every differentiable propagator sequence, time step, control, target, initial state (without map_to_closest_unitary on a subspace); for the gradient computed by a solver exponential_method 'Frechet' (the default) with frechet_deriv_approx_method None", "why_tests_cant": "derivative over the reals; finite differences only approximate it at sample points", "anchors": ["qopt/cost_functions.py:derivative_entanglement_fidelity_with_du", "qopt/cost_functions.py:OperationInfidelity.grad", "qopt/cost_functions.py:OperationInfidelity.costs"]}
{"id": "C45", "title": "Gradient respects map_to_closest_unitary", "statement": "If the cost is evaluated on the closest unitary, the gradient is the gradient of that cost.", "quantifier": "every configuration flag and propagator", "why_tests_cant": "flags x inputs", "anchors": ["qopt/cost_functions.py:OperationInfidelity.grad", "qopt/cost_functions.py:OperationInfidelity.costs"]}
{"id": "C46", "title": "Super-operator fidelity agrees with the unitary fidelity", "statement": "entanglement_fidelity_super_operator of the super operator of U equals entanglement_fidelity of U, also when restricted to computational states.", "quantifier": "every U, target and duplicate-free computational index list", "why_tests_cant": "identity over all matrices and index lists", "anchors": ["qopt/cost_functions.py:entanglement_fidelity_super_operator", "qopt/cost_functions.py:entanglement_fidelity"]}
{"id": "C47", "title": "Liouville Monte Carlo fidelity is the average fidelity", "statement": "LiouvilleMonteCarloEntanglementInfidelity equals the mean over traces of the individual entanglement infidelities, i.e. OperationNoiseInfidelity with neglect_systematic_errors=False.", "quantifier": "every number of traces and every propagator", "why_tests_cant": "linearity over all inputs", "anchors": ["qopt/cost_functions.py:LiouvilleMonteCarloEntanglementInfidelity.costs", "qopt/cost_functions.py:OperationNoiseInfidelity.costs"]}
{"id": "C48", "title": "Noise infidelity gradient includes the moving reference", "statement": "OperationNoiseInfidelity.grad is the derivative of its costs(), in both settings of neglect_systematic_errors.", "quantifier": "every propagator family, number of traces (without map_to_closest_unitary on a subspace)", "why_tests_cant": "derivative over the reals with a parameter-dependent target", "anchors": ["qopt/cost_functions.py:OperationNoiseInfidelity.costs", "qopt/cost_functions.py:OperationNoiseInfidelity.grad"]}
{"id": "C49", "title": "Leakage measures are consistent", "statement": "For unitary evolution LeakageError lies in [0,1], is 0 exactly when the truncated propagator is unitary, and equals LeakageLiouville with input_unitary; IncoherentLeakageError and the Monte Carlo Liouville leakage are the trace averages of it.", "quantifier": "every unitary, every duplicate-free computational index list", "why_tests_cant": "all unitaries and subspaces", "anchors": ["qopt/cost_functions.py:LeakageError.costs", "qopt/cost_functions.py:LeakageLiouville.costs", "qopt/cost_functions.py:IncoherentLeakageError.costs"]}
{"id": "C50", "title": "Leakage gradient is the derivative", "statement": "LeakageError.grad()[t,c] is the partial derivative of costs() wherever the clipping at 0 is inactive. For Hermitian Hamiltonians the clipping is never active and grad() is the total derivative of costs() for every pulse, also where the leakage vanishes.", "quantifier": "every differentiable propagator sequence; for the gradient computed by a solver exponential_method 'Frechet' (the default) with frechet_deriv_approx_method None", "why_tests_cant": "derivative over the reals", "anchors": ["qopt/cost_functions.py:LeakageError.grad", "qopt/cost_functions.py:LeakageError.costs"]}
{"id": "C51", "title": "State fidelity is a fidelity with the right gradient", "statement": "For normalised states state_fidelity lies in [0,1], equals 1 exactly for states equal up to a phase, and StateInfidelity.grad is the derivative of its costs.", "quantifier": "every pair of states, every differentiable propagator sequence; for the gradient computed by a solver exponential_method 'Frechet' (the default) with frechet_deriv_approx_method None", "why_tests_cant": "inequality/derivative over all states", "anchors": ["qopt/cost_functions.py:state_fidelity", "qopt/cost_functions.py:derivative_state_fidelity", "qopt/cost_functions.py:StateInfidelity"]}
{"id": "C52", "title": "Subspace state fidelity reduces correctly", "statement": "state_fidelity_subspace of a product state is the state fidelity of the kept part (times the norm of the removed part), a ket and its density matrix give the same value, and the gradient is the derivative for kets.", "quantifier": "every state, dimensions and removed subsystems", "why_tests_cant": "all dimension lists", "anchors": ["qopt/cost_functions.py:state_fidelity_subspace", "qopt/cost_functions.py:derivative_state_fidelity_subspace"]}
{"id": "C53", "title": "Rotation axis and angle describe the unitary", "statement": "angle_axis_representation returns an angle in [0, pi] and a unit axis such that the input equals a phase times cos(beta/2) 1 + i sin(beta/2) n.sigma, and rejects exactly the non-unitary matrices with ValueError.", "quantifier": "every complex 2x2 matrix", "why_tests_cant": "all unitaries and all non-unitary inputs", "anchors": ["qopt/cost_functions.py:angle_axis_representation"]}
{"id": "C54", "title": "Average gate fidelity matches the entanglement fidelity", "statement": "averge_gate_fidelity equals (2 F + 1)/3 with F the entanglement fidelity for single-qubit unitaries.", "quantifier": "all 2x2 unitaries", "why_tests_cant": "identity over all unitaries", "anchors": ["qopt/cost_functions.py:averge_gate_fidelity", "qopt/cost_functions.py:default_set_orthorgonal"]}
{"id": "C55", "title": "Simulator gradient is the full chain rule", "statement": "The Jacobian returned by wrapped_jac_functions is the derivative of wrapped_cost_functions with respect to the optimisation parameters, through cost, amplitude function and transfer function.", "quantifier": "every differentiable amplitude function, linear transfer function, cost", "why_tests_cant": "composition over all functions", "anchors": ["qopt/simulator.py:Simulator.wrapped_jac_function", "qopt/amplitude_functions.py:UnaryAnalyticAmpFunc", "qopt/amplitude_functions.py:CustomAmpFunc", "qopt/transfer_function.py:TransferFunction.gradient_chain_rule"]}
{"id": "C56", "title": "Costs are reported in the order of their labels", "statement": "The vector returned by wrapped_cost_functions is the concatenation of the cost function values in the order of the cost functions, entry i belongs to cost_indices entry i (when each function returns as many values as it has labels), and the Jacobian uses the same order on its cost axis.", "quantifier": "every list of cost functions", "why_tests_cant": "order/length alignment for all lists", "anchors": ["qopt/simulator.py:Simulator.wrapped_cost_functions", "qopt/simulator.py:Simulator.wrapped_jac_function", "qopt/simulator.py:Simulator.cost_indices"]}
{"id": "C57", "title": "Finite differences are exact on low-degree costs", "statement": "numeric_gradient returns the exact gradient for affine costs (forward differences) and for costs that are quadratic in every parameter (symmetric differences), for any non-zero step width, and leaves the caller's pulse unchanged; wrapped_jac_function of a simulator with numeric_jacobian returns the exact gradient of affine costs.", "quantifier": "every affine/quadratic cost, pulse, step width", "why_tests_cant": "all cost functions of the class", "anchors": ["qopt/simulator.py:Simulator.numeric_gradient"]}
{"id": "C58", "title": "The pulse setter configures the solvers with the given pulse", "statement": "Assigning simulator.pulse makes the solvers use the assigned pulse, whatever was set before.", "quantifier": "every history of assignments", "why_tests_cant": "history dependence", "anchors": ["qopt/simulator.py:Simulator.pulse"]}
{"id": "C59", "title": "Flattening and unflattening the pulse are inverse", "statement": "The parameter vector handed to the numerical optimiser and the (time, control) pulse array handed to the simulator are related by mutually inverse reorderings, the bounds and the Jacobian columns use the same order, so that the derivative column of a vector entry is the derivative with respect to exactly that entry.", "quantifier": "every pulse shape", "why_tests_cant": "index arithmetic for all shapes", "anchors": ["qopt/optimize.py:Optimizer.cost_func_wrapper", "qopt/optimize.py:Optimizer.cost_jacobian_wrapper", "qopt/optimize.py:LeastSquaresOptimizer.run_optimization"]}
{"id": "C60", "title": "The optimisation summary records what was evaluated", "statement": "After any sequence of evaluations the recorded costs, parameters and gradients are, in order, the cost values and Jacobians returned by the simulator and the pulses the costs were evaluated at.", "quantifier": "every evaluation sequence and weights", "why_tests_cant": "aliasing over all histories", "anchors": ["qopt/optimize.py:Optimizer.cost_func_wrapper", "qopt/optimization_data.py:OptimizationSummary"]}
{"id": "C61", "title": "The best evaluation is remembered", "statement": "At any point the stored minimal costs and parameters are those of the first evaluation with the smallest cost norm seen so far.", "quantifier": "every evaluation sequence", "why_tests_cant": "invariant over all histories", "anchors": ["qopt/optimize.py:Optimizer.cost_func_wrapper"]}
{"id": "C62", "title": "Optimizers are independent of each other", "statement": "Constructing or configuring one optimizer does not change the termination conditions another optimizer uses, nor the library defaults.", "quantifier": "every sequence of constructions", "why_tests_cant": "shared state across histories", "anchors": ["qopt/optimize.py:Optimizer.__init__", "qopt/optimize.py:default_termination_conditions", "qopt/optimize.py:SimulatedAnnealing"]}
{"id": "C63", "title": "A time-limited optimisation returns its best point", "statement": "When the wall time is exceeded the result contains the best parameters found, their costs, and the Jacobian at exactly those parameters.", "quantifier": "every evaluation history ended by a time-out", "why_tests_cant": "time-out point is arbitrary", "anchors": ["qopt/optimize.py:Optimizer.write_state_to_result", "qopt/optimize.py:Optimizer.cost_func_wrapper"]}
{"id": "C64", "title": "Scalar optimisers minimise the weighted sum with its gradient", "statement": "The scalar objective passed to the minimiser is the weighted sum of the cost entries and the gradient passed is the weighted sum of the Jacobian rows.", "quantifier": "every cost vector, Jacobian and weights", "why_tests_cant": "all sizes", "anchors": ["qopt/optimize.py:ScalarMinimizingOptimizer.cost_func_wrapper", "qopt/optimize.py:ScalarMinimizingOptimizer.cost_jacobian_wrapper"]}
{"id": "C65", "title": "Annealing moves respect the bounds", "statement": "Starting within the bounds, every state reached by any number of annealing moves with any random numbers stays within the bounds and differs from its predecessor by at most the step size in each entry; zero or non-integer step sizes are rejected.", "quantifier": "every random sequence, step size and bounds", "why_tests_cant": "all random sequences and lengths", "anchors": ["qopt/optimize.py:PulseAnnealer.move"]}
{"id": "C66", "title": "A data container is a faithful log of results", "statement": "After any sequence of appended results the container's length equals the number of appended results and every stored list has that length; entry k of each list is the data of the k-th result.", "quantifier": "every sequence of results", "why_tests_cant": "invariant over all histories", "anchors": ["qopt/data_container.py:DataContainer.append_optim_result", "qopt/data_container.py:DataContainer._append", "qopt/data_container.py:DataContainer.__len__"]}
{"id": "C67", "title": "Data container dictionary round-trip", "statement": "Converting a data container to a dictionary and back yields an equal container.", "quantifier": "every container content", "why_tests_cant": "round trip for all contents", "anchors": ["qopt/data_container.py:DataContainer._to_dict", "qopt/data_container.py:DataContainer._from_dict"]}
{"id": "C68", "title": "Optimisation result round-trip", "statement": "OptimizationResult.from_dict(result.to_dict()) reproduces the result.", "quantifier": "every result", "why_tests_cant": "round trip for all contents", "anchors": ["qopt/optimization_data.py:OptimizationResult.to_dict", "qopt/optimization_data.py:OptimizationResult.from_dict"]}
{"id": "C69", "title": "Parallel optimisation returns results in input order", "statement": "run_optimization_parallel returns a container with one result per initial pulse in the order given, equal to running them one after the other with independent copies of the optimizer, whatever the number of processes.", "quantifier": "every list of initial pulses, every schedule", "why_tests_cant": "all schedules", "anchors": ["qopt/parallel.py:run_optimization_parallel"]}
{"id": "C70", "title": "The analyser picks the best run", "statement": "n_least_square returns the number of the first run whose final costs have the smallest sum of squares; absolute_costs holds for each run and iteration the Euclidean norm of the costs, and nan beyond the run's last iteration.", "quantifier": "every stored cost history", "why_tests_cant": "minimum over all histories", "anchors": ["qopt/analyser.py:Analyser.n_least_square", "qopt/analyser.py:Analyser.absolute_costs"]}
{"id": "C71", "title": "Quasi-static noise samples hit one operator at a time", "statement": "In deterministic mode the sample array has shape (operators, traces, samples) with traces = n_traces*operators as reported, each trace is constant in time, is non-zero on at most one operator, and operator i's samples appear once each, in order, in block i; in Monte Carlo mode trace j of operator i has at all times the value of its own standard normal number times the standard deviation of operator i.", "quantifier": "every list of standard deviations, trace and sample counts", "why_tests_cant": "index structure for all sizes", "anchors": ["qopt/noise.py:NTGQuasiStatic._sample_noise", "qopt/noise.py:NTGQuasiStatic.n_traces"]}
{"id": "C72", "title": "Deterministic Gaussian samples are unbiased and ordered", "statement": "sample_1dim_gaussian_distribution returns n_samples values, increasing for positive std, symmetric about the mean, whose average is the mean; they scale linearly with std.", "quantifier": "every n, std, mean and any odd increasing quantile function", "why_tests_cant": "all n", "anchors": ["qopt/noise.py:sample_1dim_gaussian_distribution", "qopt/noise.py:inverse_cumulative_gaussian_distribution_function"]}
{"id": "C73", "title": "Corrected samples have the requested standard deviation", "statement": "With correct_std_for_discrete_sampling the deterministic samples of each operator have exactly the requested standard deviation.", "quantifier": "every list of positive standard deviations, every n_traces >= 2", "why_tests_cant": "all operator/trace counts", "anchors": ["qopt/noise.py:NTGQuasiStatic.__init__"]}
{"id": "C74", "title": "Noise generators do not modify the caller's arguments", "statement": "Constructing a quasi-static generator leaves the list of standard deviations passed in unchanged, so that constructing a second one from the same list gives the same samples.", "quantifier": "every list and number of constructions", "why_tests_cant": "aliasing over histories", "anchors": ["qopt/noise.py:NTGQuasiStatic.__init__"]}
{"id": "C75", "title": "Bell curves are normalised", "statement": "bell_curve_1dim and bell_curve_2dim integrate to one.", "quantifier": "every positive standard deviation", "why_tests_cant": "integral over the reals", "anchors": ["qopt/noise.py:bell_curve_1dim", "qopt/noise.py:bell_curve_2dim"]}
{"id": "C76", "title": "Coloured noise has no DC component and the documented length", "statement": "A trace produced by fast_colored_noise sums to zero and has n_samples entries, or with r_power_of_two the largest power of two not exceeding n_samples.", "quantifier": "every spectral density, random input and length", "why_tests_cant": "all lengths and spectra", "anchors": ["qopt/noise.py:fast_colored_noise"]}
{"id": "C77", "title": "Stored noise samples are stable unless redraw is requested", "statement": "Repeated reads of noise_samples return the same samples when always_redraw_samples is False, and precalculated samples are never replaced; with True a fresh draw is used at every read.", "quantifier": "every sequence of reads and every random stream", "why_tests_cant": "histories", "anchors": ["qopt/noise.py:NoiseTraceGenerator.noise_samples"]}
{"id": "C78", "title": "A failed propagation is not reported as a result", "statement": "If computing the propagators raises an exception, reading them again for the same pulse raises as well instead of returning an incomplete list; setting another pulse restores normal operation.", "quantifier": "every solver configuration, pulse and history of calls, including calls that raised", "why_tests_cant": "The outcome depends on which attributes were assigned before the exception and on all later calls; tests check single calls.", "anchors": ["qopt/solver_algorithms.py:465-534", "qopt/solver_algorithms.py:908-950", "qopt/solver_algorithms.py:632-657"]}
{"id": "C79", "title": "A drift list accepted by the constructor can be propagated", "statement": "For every list of drift Hamiltonians the constructor accepts (one operator, one per transferred time step, or none) the propagators can be computed.", "quantifier": "every drift list, time grid and accepted pulse", "why_tests_cant": "Tests construct solvers with one of the accepted forms only; the claim is about every accepted form and every pulse.", "anchors": ["qopt/solver_algorithms.py:330-336", "qopt/solver_algorithms.py:414-463", "qopt/solver_algorithms.py:885-900"]}
{"id": "C80", "title": "Noise averaged state infidelity", "statement": "StateNoiseInfidelity.costs is the mean over the noise traces of the state infidelity to the target, or to the noiseless final state if systematic errors are neglected. It lies in [0,1]. It vanishes exactly if every trace ends in the target, or in the noiseless final state, up to a phase.", "quantifier": "all normalised states, any positive number of traces, with or without computational states", "why_tests_cant": "all noise traces and states", "anchors": ["qopt/cost_functions.py:StateNoiseInfidelity.costs"]}
{"id": "C81", "title": "A data container can be deep copied", "statement": "copy.deepcopy of a DataContainer returns a container with equal contents whose later appends do not show in the original.", "quantifier": "every container, every later history", "why_tests_cant": "independence over all later histories", "anchors": ["qopt/data_container.py:DataContainer.__deepcopy__"]}
{"id": "C82", "title": "Coloured noise has the requested spectrum", "statement": "The power of a trace of fast_colored_noise at each Fourier frequency f = k/(n dt), 0 < k <= n//2, is the power of the white noise it was made from times spectral_density(f) times the Nyquist frequency.", "quantifier": "every spectral density, time step, length and random input", "why_tests_cant": "exact identity for all lengths, spectra and random numbers; tests only compare averaged periodograms", "anchors": ["qopt/noise.py:fast_colored_noise"]}
{"id": "C83", "title": "Coloured noise samples have the requested shape", "statement": "The samples of NTGColoredNoise have the shape (n_noise_operators, n_traces, n_samples_per_trace) for every low_frequency_extension_ratio, and are the beginning of the longer trace; ratios below one and missing counts raise ValueError; every trace is made of its own random numbers.", "quantifier": "every count and ratio", "why_tests_cant": "all sizes and ratios", "anchors": ["qopt/noise.py:NTGColoredNoise.__init__", "qopt/noise.py:NTGColoredNoise._sample_noise"]}
{"id": "C84", "title": "A custom transfer matrix fixes its time grid", "statement": "A CustomMTF built from a transfer matrix can be used on every time grid whose number of steps is the number of columns of the matrix: after every set_times the x_times contain one duration for each row of a transferred pulse, calls with a pulse on this grid succeed, and set_times raises ValueError when the matrix does not fit the grid or the bound type.", "quantifier": "every matrix, bound type, explicit or constructed x_times, every sequence of grids", "why_tests_cant": "the relation between rows, columns, padding and oversampling must hold for all shapes and for repeated calls", "anchors": ["qopt/transfer_function.py:CustomMTF.set_times", "qopt/transfer_function.py:CustomMTF.__init__"]}
{"id": "C85", "title": "The statistics in a result describe that run only", "statement": "The performance statistics attached to an OptimizationResult (and appended to a DataContainer) are final: whatever is done with the simulator afterwards - evaluating costs or gradients, further optimizations, exceptions - does not change them, and the results of different runs never share a statistics object.", "quantifier": "every simulator state, every sequence of runs and evaluations, every optimizer and way a run can end", "why_tests_cant": "aliasing between simulator, results and container shows only in long sessions; tests look at one run", "anchors": ["qopt/optimize.py:Optimizer.prepare_optimization", "qopt/simulator.py:Simulator.wrapped_cost_functions", "qopt/simulator.py:Simulator.wrapped_jac_function", "qopt/optimize.py:Optimizer.write_state_to_result"]}
{"id": "C86", "title": "Recorded evaluation times add up", "statement": "With record_performance_statistics, the statistics of a run hold one row per evaluation with one non-negative time per cost function; all recorded times together are at most the duration of the run, so the analyser's time_share_cost_fkt and time_share_grad_fkt are non-negative and add up to at most one; gradient evaluations are recorded as gradient times.", "quantifier": "every monotone clock, every sequence of runs, evaluations, numbers of cost functions and ways a run can end", "why_tests_cant": "depends on the order of clock readings on paths (wall time exceeded) which tests do not time", "anchors": ["qopt/simulator.py:Simulator.wrapped_cost_functions", "qopt/simulator.py:Simulator.wrapped_jac_function", "qopt/optimize.py:Optimizer.write_state_to_result", "qopt/analyser.py:Analyser.time_share_cost_fkt", "qopt/analyser.py:Analyser.opt_times"]}
{"id": "C87", "title": "The filter function package receives the current pulse", "statement": "OperationInfidelity by filter functions hands to the filter_functions package a pulse sequence with the control amplitudes, durations and noise terms of the pulse currently set in the solver, one control per control operator, together with the identifiers of all noise terms in the order of filter_function_h_n, sample frequencies and basis belonging to this pulse sequence; malformed noise terms and a missing pulse raise ValueError.", "quantifier": "every history of set_optimization_parameters, set_times, reads, create_pulse_sequence and costs (including calls which raised), every noise specification, both kinds of solver", "why_tests_cant": "the pulse sequence is cached in the solver and the frequencies in the cost function; a test evaluates one pulse on a fresh solver", "anchors": ["qopt/solver_algorithms.py:Solver.create_pulse_sequence", "qopt/solver_algorithms.py:Solver.create_ff_h_n", "qopt/solver_algorithms.py:Solver.reset_cached_propagators", "qopt/solver_algorithms.py:SchroedingerSMonteCarlo.create_ff_h_n", "qopt/cost_functions.py:OperatorFilterFunctionInfidelity.costs"]}
{"id": "C88", "title": "The exported fidelity derivatives are derivatives", "statement": "derivative_average_gate_fidelity, derivative_average_gate_fid_with_du (one qubit) and derivative_entanglement_fidelity return, for every control and every time step, the derivative of the respective fidelity of the total propagator with respect to that control amplitude, given the propagator derivatives or using those of the grape approximation, -i delta_t H U.", "quantifier": "every number of controls and time steps, every pulse, every dimension, every control Hamiltonian", "why_tests_cant": "the entries are assembled by nested loops over controls, times and reversed propagators; a test compares one system with finite differences", "anchors": ["qopt/cost_functions.py:derivative_average_gate_fidelity", "qopt/cost_functions.py:derivative_average_gate_fid_with_du", "qopt/cost_functions.py:derivative_entanglement_fidelity"]}
{"id": "C89", "title": "OperatorMatrixNorm measures the distance up to a global phase", "statement": "OperatorMatrixNorm with mode 'scalar' or 'vector' can be built from a solver and a target; its costs are insensitive to the global phase of the propagator, vanish exactly if propagator and target agree up to a global phase, and come with as many indices as there are values.", "quantifier": "every target, every propagator of every dimension, all three modes", "why_tests_cant": "the phase is read from one matrix entry; tests use targets whose first entry is real and positive", "anchors": ["qopt/cost_functions.py:OperatorMatrixNorm.costs", "qopt/cost_functions.py:OperatorMatrixNorm.__init__", "qopt/cost_functions.py:CostFunction.__init__"]}
{"id": "C90", "title": "compare_numeric_to_analytic_gradient measures the error of grad()", "statement": "compare_numeric_to_analytic_gradient returns the norm of the difference between the finite-difference gradient of the costs and the gradient computed from grad() of the cost functions: zero iff they agree in every entry, tending to zero with delta_eps for correct gradients, together with a relative difference between 0 and 2.", "quantifier": "every simulator, pulse, step width, forward and symmetric differences", "why_tests_cant": "the check itself is what tests rely on; a test compares one pulse and one step width", "anchors": ["qopt/simulator.py:Simulator.compare_numeric_to_analytic_gradient", "qopt/simulator.py:Simulator.numeric_gradient", "qopt/simulator.py:Simulator.wrapped_jac_function"]}
{"id": "C91", "title": "dexp with methods Frechet and approx is the derivative of the exponential", "statement": "dexp(method='Frechet') returns the directional derivative of the matrix exponential of tau*A; dexp(method='approx') tends to it as epsilon tends to zero; exp and dexp accept exactly the documented methods.", "quantifier": "every matrix, direction, complex tau, epsilon, method", "why_tests_cant": "a finite-difference derivative looks right for the Hermitian matrices used in tests; a systematic error is only visible for non-normal matrices such as Lindblad generators", "anchors": ["qopt/matrix.py:DenseOperator.dexp", "qopt/matrix.py:DenseOperator.exp"]}
{"id": "C92", "title": "The Taylor methods approximate the exponential to their order", "statement": "exp with method 'first_order', 'second_order', 'third_order' differs from the matrix exponential of tau*A by at most r^(k+1)/(k+1)! * e^r in every row sum, where k is the order and r the largest row sum of |tau*A|.", "quantifier": "every matrix of every dimension and every complex tau", "why_tests_cant": "an error bound for all matrices and step widths", "anchors": ["qopt/matrix.py:DenseOperator.exp"]}
{"id": "C93", "title": "The Jacobian handed to the optimiser is the exact gradient, from parameters to infidelity", "statement": "For a simulator with any number of solvers (exponential method 'Frechet', no approximation), any nested transfer functions of the library, amplitude functions acting on each time step, and any non-empty list of OperationInfidelity (not map_to_closest_unitary together with computational states), StateInfidelity, LeakageError (Hermitian Hamiltonians), OperationNoiseInfidelity (on a Monte Carlo solver running in one process without noise amplitude function) and super operator OperationInfidelity cost functions (on a Lindblad solver), wrapped_jac_function returns without an exception and entry [t][i][j] of the result is the derivative of entry i of wrapped_cost_functions with respect to optimisation parameter j of step t.", "quantifier": "every number of solvers, time steps, controls and parameters, every dimension, every Hamiltonian, every target, every number of noise traces and all noise samples, every pulse", "why_tests_cant": "the chain runs through matrix exponentials, products, transfer matrices and amplitude functions; a test compares finite differences at single points with a tolerance", "anchors": ["qopt/simulator.py:Simulator.wrapped_jac_function", "qopt/simulator.py:Simulator.wrapped_cost_functions", "qopt/cost_functions.py:OperationInfidelity", "qopt/cost_functions.py:StateInfidelity", "qopt/cost_functions.py:OperationNoiseInfidelity", "qopt/solver_algorithms.py:SchroedingerSolver", "qopt/cost_functions.py:LeakageError", "qopt/solver_algorithms.py:LindbladSolver"]}
{"id": "C94", "title": "Every noise trace of the Monte Carlo solver is a noiseless solver whose drift contains the noise", "statement": "SchroedingerSMonteCarlo without noise amplitude function: entry k of propagators_noise, forward_propagators_noise, reversed_propagators_noise and frechet_deriv_propagators_noise is what a fresh SchroedingerSolver with the drift H_drift[t] + sum_j noise_samples[j][k][t] h_noise[j] returns for the same amplitudes; propagators and their products for every value of `processes`, derivatives in one process. With frechet_deriv_approx_method 'grape' entry [k][ctrl][t] is -i dt H_ctrl P_k[t].", "quantifier": "every number of traces, noise operators, time steps, controls, all samples, every matrix dimension, every exponential method, every number of processes", "why_tests_cant": "tests use one noise operator with few traces and compare with a tolerance; swapped axes of the sample array or a trace that leaks into the next one need other shapes and all samples to be excluded", "anchors": ["qopt/solver_algorithms.py:SchroedingerSMonteCarlo", "qopt/solver_algorithms.py:SchroedingerSMonteCarlo._compute_propagation"]}
{"id": "C95", "title": "Gradients with noise that depends on the pulse", "statement": "With SchroedingerSMCControlNoise or a noise_amplitude_function the Jacobian of OperationNoiseInfidelity returned by the simulator is the derivative of its cost with respect to the optimisation parameters.", "quantifier": "all amplitude functions, all noise amplitude functions, all noise samples, all pulses (without map_to_closest_unitary on a subspace); exponential_method 'Frechet' (the default) with frechet_deriv_approx_method None", "why_tests_cant": "the error vanishes for the identity as amplitude function, which the examples use; for others a finite difference test has to hit a pulse at which the neglected term is visible", "anchors": ["qopt/solver_algorithms.py:SchroedingerSMCControlNoise", "qopt/solver_algorithms.py:SchroedingerSMonteCarlo._compute_dyn_gen_noise", "qopt/cost_functions.py:OperationNoiseInfidelity.grad"]}
{"id": "C96", "title": "The Lindblad evolution is completely positive", "statement": "The propagators and forward propagators of LindbladSolver are completely positive: with non-negative time steps and non-negative dissipator prefactors every density matrix is mapped to a density matrix, also when the map acts on one part of a larger system.", "quantifier": "all Hermitian drift and control Hamiltonians, all Lindblad operators, all pulses, all non-negative step lengths and prefactors, all density matrices; exponential_method 'Frechet', the default; the identity (the default) as initial operator", "why_tests_cant": "positivity is a condition on all input states at once and complete positivity on all extensions of the system; a test checks single states, and rounding errors hide small negative eigenvalues", "anchors": ["qopt/solver_algorithms.py:LindbladSolver._calc_diss_sup_op", "qopt/solver_algorithms.py:LindbladSolver._compute_dyn_gen", "qopt/solver_algorithms.py:SchroedingerSolver._compute_propagation"]}
{"id": "C97", "title": "Infidelity and leakage of an open system are probabilities", "statement": "Computed from a LindbladSolver, OperationInfidelity (super_operator_formalism) and LeakageLiouville (input_unitary=False) return numbers between 0 and 1. The infidelity is 0 exactly when the evolution acts on the computational states as the target; the leakage is the population outside of the computational subspace after evolving the fully mixed computational state.", "quantifier": "all Hermitian Hamiltonians, all Lindblad operators, all pulses, all non-negative step lengths and prefactors, all unitary targets, all sets of computational states; exponential_method 'Frechet', the default; the identity (the default) as initial operator", "why_tests_cant": "values outside [0, 1] and a zero for a wrong channel are excluded only by the complete positivity of the whole evolution, a statement about all pulses; tests evaluate a few", "anchors": ["qopt/cost_functions.py:entanglement_fidelity_super_operator", "qopt/cost_functions.py:OperationInfidelity.costs", "qopt/cost_functions.py:LeakageLiouville.costs", "qopt/solver_algorithms.py:LindbladSolver"]}
{"id": "C98", "title": "Gradient of the infidelity of an open system is its total derivative", "statement": "On a LindbladSolver (exponential method 'Frechet', Hermitian control operators) OperationInfidelity with super_operator_formalism returns one minus the entanglement fidelity of the product of the exponentials of the Lindblad generators, and grad() returns without an exception the total derivative of costs() with respect to the whole array of control amplitudes. This holds for constant dissipation super operators, constant Lindblad operators, Lindblad operators with prefactor function and its derivative function, and a super operator function with its derivative function.", "quantifier": "every dimension, number of steps and controls, every drift and Hermitian control Hamiltonian, every amplitude array, all differentiable prefactor and super operator functions of the amplitudes of the same step, every target, every set of computational states, every initial super operator", "why_tests_cant": "the derivative runs through non-normal matrix exponentials of generators that depend non-linearly on the amplitudes; tests compare finite differences for one qubit with one prefactor", "anchors": ["qopt/solver_algorithms.py:LindbladSolver._compute_derivative_directions", "qopt/solver_algorithms.py:LindbladSolver._calc_diss_sup_op_deriv", "qopt/solver_algorithms.py:SchroedingerSolver._compute_propagation_derivatives", "qopt/cost_functions.py:deriv_entanglement_fid_sup_op_with_du", "qopt/cost_functions.py:OperationInfidelity.grad"]}
{"id": "C99", "title": "Results of a LindbladSolver do not depend on the history of calls", "statement": "Reading propagators, forward_propagators, reversed_propagators or frechet_deriv_propagators of a LindbladSolver gives, after any sequence of set_optimization_parameters, set_times and reads, the result (value or exception) of a newly constructed solver on the current grid with the pulse set last.", "quantifier": "every sequence of calls, every dimension, number of steps and controls, every transfer and amplitude function, all ways of giving the dissipation, every exponential and derivative approximation method for which reads agree", "why_tests_cant": "the caches of the dissipation survive resets on a different rule than those of the propagators; which stale entry matters depends on the order of calls and on exceptions that were caught", "anchors": ["qopt/solver_algorithms.py:LindbladSolver._compute_dyn_gen", "qopt/solver_algorithms.py:LindbladSolver.reset_cached_propagators", "qopt/solver_algorithms.py:LindbladSolver._calc_diss_sup_op", "qopt/solver_algorithms.py:Solver.set_times", "qopt/solver_algorithms.py:LindbladSolver.set_optimization_parameters"]}
{"id": "C100", "title": "One noise realisation per pulse in a Monte Carlo solver", "statement": "After a new pulse has been set on a SchroedingerSMonteCarlo, all results read for this pulse, with and without noise, in any order and any number of times, belong to one set of noise samples: the noise trace generator is read once, at the first result. A result once returned is returned again; a read that raised raises again. After set_times all results belong to the new durations and one new set of samples.", "quantifier": "every state of the solver before the pulse is set, every sequence of reads, every noise trace generator (redrawing or not), every dimension, number of steps, controls, noise operators and traces, serial and parallel mode; solver options for which the results do not depend on the order of the reads (as for the defaults)", "why_tests_cant": "results come from caches filled in different places depending on what is read first; random samples hide a second drawing in sampling noise, and a wrong result after a caught exception looks like a result", "anchors": ["qopt/solver_algorithms.py:SchroedingerSMonteCarlo._compute_dyn_gen_noise", "qopt/solver_algorithms.py:SchroedingerSMonteCarlo._compute_propagation", "qopt/solver_algorithms.py:SchroedingerSMonteCarlo._compute_forward_propagation", "qopt/solver_algorithms.py:SchroedingerSMonteCarlo._compute_reversed_propagation", "qopt/solver_algorithms.py:SchroedingerSMonteCarlo._compute_propagation_derivatives", "qopt/solver_algorithms.py:SchroedingerSMonteCarlo.reset_cached_propagators", "qopt/noise.py:NoiseTraceGenerator.noise_samples"]}
{"id": "C101", "title": "A simulated annealing run returns the best pulse it evaluated", "statement": "SimulatedAnnealing.run_optimization simulates the initial pulse and one further pulse per step, all within the bounds, and returns one of them: final_cost belongs to final_parameters and no simulated pulse has a smaller norm of the costs. The result describes the run (status, termination reason, number of evaluations, values of the cost functions), also when the time limit ends it.", "quantifier": "every simulator (any number of cost functions), every initial pulse, bounds, step size, temperatures, number of steps, all random numbers and all times of the evaluations", "why_tests_cant": "the path is random; that the best pulse is kept under every sequence of accepted and rejected moves, and that a flattened and transposed state reaches the simulator as the pulse it is, cannot be seen from single runs", "anchors": ["qopt/optimize.py:SimulatedAnnealing.run_optimization", "qopt/optimize.py:SimulatedAnnealing.prepare_optimization", "qopt/optimize.py:PulseAnnealer.energy", "qopt/optimize.py:PulseAnnealer.move", "qopt/optimize.py:Optimizer.cost_func_wrapper"]}
{"id": "C102", "title": "Results of a simulator do not depend on what was evaluated before", "statement": "Simulator.wrapped_cost_functions(pulse) and wrapped_jac_function(pulse) return, or raise, what a simulator with newly constructed solvers does for that pulse, whatever costs and Jacobians were evaluated before at whatever pulses; in particular the order of evaluations does not matter, and cost functions sharing a solver do not influence each other.", "quantifier": "every number of Schroedinger and Lindblad solvers (all exponential methods, approximations, transfer and amplitude functions), every list of cost functions on them, every sequence of calls, every pulse", "why_tests_cant": "results are cached in the solvers with separate flags for amplitudes, propagators, products and derivatives; a stale result needs a particular order of calls, and there are unboundedly many orders", "anchors": ["qopt/simulator.py:Simulator.wrapped_cost_functions", "qopt/simulator.py:Simulator.wrapped_jac_function", "qopt/solver_algorithms.py:Solver.set_optimization_parameters"]}
{"id": "C103", "title": "Oversampling a pulse changes neither the evolution nor costs and gradients", "statement": "A solver with OversamplingTF and a solver with one step per optimisation parameter, given the same system with constant drift and the same pulse, compute the same evolution: at every instant of every original step the forward propagator of the fine solver is the one of the coarse solver propagated by the constant Hamiltonian of that step, padding steps before and after add the evolution under the amplitudes of a vanishing pulse, and without padding Simulator.wrapped_cost_functions and wrapped_jac_function return the same arrays for both.", "quantifier": "every system size, number of controls and steps, step lengths, oversampling factor, padding, amplitude function acting on each time step, initial state or operator, pulse, and (for costs and gradients) every list of operation, state and leakage infidelities on any number of solvers; costs and gradients: exponential_method 'Frechet' (the default) with frechet_deriv_approx_method None; propagators: also 'spectral' with is_skew_hermitian and Hermitian operators", "why_tests_cant": "compares two configurations of the whole library on a continuum of pulses; a test compares a few pulses up to rounding and cannot tell a scheme which is only accurate to some order from one which agrees", "anchors": ["qopt/transfer_function.py:OversamplingTF", "qopt/solver_algorithms.py:SchroedingerSolver", "qopt/simulator.py:Simulator.wrapped_cost_functions", "qopt/simulator.py:Simulator.wrapped_jac_function"]}
{"id": "C104", "title": "Units of energy, choice of basis and zero of energy do not change costs and gradients", "statement": "Multiplying all Hamiltonians by a number and dividing all times by it, expressing operators, initial states and targets in another orthonormal basis, and adding a constant energy to the drift describes the same experiment: the forward propagators change only by the basis and by the phase which belongs to the added energy, and Simulator.wrapped_cost_functions and wrapped_jac_function return the same arrays for both descriptions.", "quantifier": "every system size, number of controls and steps, step lengths, scale factor other than zero, unitary basis change, energy shift and pulse; any number of solvers and operation, state and leakage infidelities (a computational subspace given by basis states excludes a change of the basis); exponential_method 'Frechet' (the default) with frechet_deriv_approx_method None", "why_tests_cant": "an invariance under a continuum of transformations, of the whole chain from parameters to gradient; rounding makes a test of equality impossible and hides errors which are small for the units tried", "anchors": ["qopt/solver_algorithms.py:SchroedingerSolver", "qopt/cost_functions.py:OperationInfidelity", "qopt/cost_functions.py:StateInfidelity", "qopt/cost_functions.py:LeakageError", "qopt/simulator.py:Simulator.wrapped_cost_functions", "qopt/simulator.py:Simulator.wrapped_jac_function"]}
{"id": "C105", "title": "A pulse can be recovered from its exponentially smoothed amplitudes", "statement": "ExponentialMTF loses no information: two pulses with the same amplitudes are equal, and reverse_state(amplitudes) returns the pulse from which the object computed these amplitudes.", "quantifier": "every number of steps (at least two) and controls, oversampling, rise time, step width, bound type and pulse", "why_tests_cant": "injectivity concerns pairs of pulses from a continuum; the recursion amplifies errors from step to step, so a test on short pulses says nothing about long ones", "anchors": ["qopt/transfer_function.py:ExponentialMTF.reverse_state", "qopt/transfer_function.py:ExponentialMTF._calculate_transfer_matrix"]}
{"id": "C106", "title": "Two-dimensional Gaussian samples: the promised number, with equal weight between them", "statement": "sample_2dim_gaussian_distribution(std1, std2, n_samples) returns n_samples points of the grid, and the weight of the bell curve passed between two adjacent samples is 1 / (n_samples + 1) up to the weight of one cell of the grid.", "quantifier": "all standard deviations other than zero and all numbers of samples", "why_tests_cant": "one call sums 10^8 cells and takes minutes; a test can try a few numbers of samples only", "anchors": ["qopt/noise.py:sample_2dim_gaussian_distribution", "qopt/noise.py:bell_curve_2dim"]}
{"id": "C107", "title": "The energy spectrum plot shows the eigenvalues, coloured by the composition of the eigenstates", "statement": "plot_energy_spectrum(hamiltonian, x_val, ...) draws one band per level with a point for each Hamiltonian; the energies over one position are the eigenvalues with multiplicity in ascending order; each point has the colour of a normalised eigenvector to its energy, an RGB value between 0 and 1 with one channel fully on that depends on the relative moduli of the components only; basis states have the colours of the map; without degenerate levels the plot does not depend on the choices of the eigenvalue routine. vector_color_map colours the columns of its argument, as documented.", "quantifier": "all lists of Hermitian matrices of one size, all positions and all nonblack basis colours", "why_tests_cant": "pictures are not compared in tests, and the phases and order returned by the eigenvalue routine vary between platforms", "anchors": ["qopt/energy_spectrum.py:vector_color_map", "qopt/energy_spectrum.py:plot_energy_spectrum", "qopt/matrix.py:DenseOperator.spectral_decomposition"]}
{"id": "C108", "title": "The Bloch sphere plot shows the Bloch vectors of the evolved state", "statement": "plot_bloch_vector_evolution(forward_propagators, initial_state) draws one point for each propagator, the Bloch vector of the state evolved with it: on the unit sphere for pure states, equal for two initial kets exactly when they agree up to a phase. Initial states given as kets and as density matrices are treated alike. Empty lists and other dimensions than two are rejected.", "quantifier": "all lists of unitary 2 x 2 propagators and all normalised initial states", "why_tests_cant": "pictures are not compared in tests", "anchors": ["qopt/plotting.py:plot_bloch_vector_evolution"]}
{"id": "C109", "title": "Coloured noise has the autocovariance and the expected periodogram of its spectral density", "statement": "If np.random.randn returns independent standard normal numbers, then the samples of fast_colored_noise and of NTGColoredNoise have mean zero, the expectation of the product of two samples of one trace depends only on their distance in time and is the cosine transform of the spectral density (as a sum over the frequencies of a signal of that duration), and different traces and operators are uncorrelated. The expected periodogram that plot_periodogram averages is the spectral density at every frequency that enters the returned deviation norm.", "quantifier": "all spectral densities that are not negative, all time steps, trace lengths, numbers of traces, operators and averages; expectation over all random inputs", "why_tests_cant": "a statement about expectations over a probability space; tests see finitely many draws and need tolerances of several per cent", "anchors": ["qopt/noise.py:fast_colored_noise", "qopt/noise.py:NTGColoredNoise._sample_noise", "qopt/noise.py:NTGColoredNoise.plot_periodogram"]}
{"id": "C110", "title": "Control amplitudes given to the constructor act like a pulse", "statement": "A solver constructed with ctrl_amps=u returns the propagators, forward and reversed propagators and derivatives of a solver on which a pulse with these amplitudes was set, and setting a pulse afterwards replaces them without trace. Amplitudes of the wrong shape are rejected like those of a pulse.", "quantifier": "all solver configurations whose reads do not depend on their order, grids, amplitudes, and lists of reads before and after", "why_tests_cant": "the tests construct solvers without amplitudes", "anchors": ["qopt/solver_algorithms.py:Solver.__init__", "qopt/solver_algorithms.py:Solver.set_optimization_parameters"]}
{"id": "C111", "title": "The noise infidelity is an unbiased estimate of the average over the noise", "statement": "OperationNoiseInfidelity on a Monte Carlo solver whose K noise traces are independent and identically distributed returns a random number. Its mean is the infidelity averaged over the distribution of one trace, its variance is that of a single trace divided by K and at most 1/(4K), and an error of at least eps has probability at most 2*exp(-2*K*eps^2). The traces of NTGQuasiStatic in Monte Carlo mode and of NTGColoredNoise are such traces: for NTGQuasiStatic each noise operator has a constant value, normally distributed with its standard deviation; for NTGColoredNoise the trace is Gaussian with mean zero.", "quantifier": "all Hermitian systems, pulses, computational subspaces, unitary targets, trace counts, serial or parallel evaluation, and distributions of a noise trace (without map_to_closest_unitary on a subspace); exponential_method 'Frechet' (the default) and solver options for which the results do not depend on the order of the reads (as for the defaults)", "why_tests_cant": "the result is random; a test sees single draws and cannot tell a biased average from an unlucky one", "anchors": ["qopt/cost_functions.py:OperationNoiseInfidelity.costs", "qopt/noise.py:NTGQuasiStatic._sample_noise", "qopt/noise.py:NTGColoredNoise._sample_noise", "qopt/solver_algorithms.py:SchroedingerSMonteCarlo._compute_propagation"]}
{"id": "C112", "title": "The gradient of the noise infidelity is an unbiased estimate of the gradient of the noise average", "statement": "OperationNoiseInfidelity.grad on a Monte Carlo solver whose noise traces are independent and identically distributed returns a random array. The mean of each entry is the partial derivative, with respect to that amplitude, of the infidelity averaged over the distribution of the noise. In particular for NTGQuasiStatic in Monte Carlo mode it is the gradient of the average over static normally distributed noise.", "quantifier": "all Hermitian systems, amplitudes, computational subspaces, unitary targets or neglected systematic errors, trace counts and distributions of a noise trace (without map_to_closest_unitary on a subspace); exponential_method 'Frechet' (the default) and solver options for which the results do not depend on the order of the reads (as for the defaults)", "why_tests_cant": "the gradient is random and the averaged infidelity has no closed form to compare with", "anchors": ["qopt/cost_functions.py:OperationNoiseInfidelity.grad", "qopt/solver_algorithms.py:SchroedingerSMonteCarlo", "qopt/noise.py:NTGQuasiStatic._sample_noise"]}
{"id": "C113", "title": "The gradient of the filter function infidelity is the derivative of the reported infidelity", "statement": "OperatorFilterFunctionInfidelity.grad hands to the filter function package the same pulse sequence, frequencies and noise identifiers as costs does, the identifiers of all controls in order, and the derivatives of the noise susceptibilities evaluated for the current pulse (None if no callable was given). Its result has shape (num_t, num_f, num_ctrl). On a solver other than the Monte Carlo ones, entry (t, f, c) is the derivative of the infidelity of noise term f, as returned by costs, with respect to the amplitude of control c at time t, provided the derivatives of the susceptibilities given by the user are correct.", "quantifier": "all solver states reachable by setting parameters, creating pulse sequences and evaluating costs; all controls, noise terms with callable or constant susceptibilities, and all packages that compute derivatives of their own infidelities", "why_tests_cant": "the package is external and the relation holds for all pulses and histories; a test compares single numbers with a finite difference", "anchors": ["qopt/cost_functions.py:OperatorFilterFunctionInfidelity.grad", "qopt/solver_algorithms.py:Solver.filter_function_n_coeffs_deriv_vals"]}
{"id": "C114", "title": "The noise infidelity from deterministic samples converges to the average over normally distributed noise", "statement": "OperationNoiseInfidelity.costs on a Monte Carlo solver whose noise comes from NTGQuasiStatic with sampling_mode='uncorrelated_deterministic' is the mean over the noise operators of the mean infidelity with static noise of the sampled strengths on that operator alone. When n_traces grows it converges to the mean over the noise operators of the infidelity averaged over a normal distribution with the standard deviation requested by the user, with and without correct_std_for_discrete_sampling.", "quantifier": "all Hermitian systems, pulses, computational subspaces, unitary targets or neglected systematic errors, lists of noise operators and standard deviations (larger than 1e-20 if they are corrected) (without map_to_closest_unitary on a subspace); exponential_method 'Frechet' (the default) and solver options for which the results do not depend on the order of the reads (as for the defaults)", "why_tests_cant": "the limit of a sequence of numerical averages and an integral without closed form", "anchors": ["qopt/noise.py:NTGQuasiStatic", "qopt/noise.py:sample_1dim_gaussian_distribution", "qopt/cost_functions.py:OperationNoiseInfidelity.costs"]}
{"id": "C115", "title": "Pulses compose", "statement": "For a SchroedingerSolver the forward propagators of two pulses played one after the other are those of the first pulse followed by those of the second pulse started where the first one ended; the operator of the whole is the product of both, the later one leftmost. A time step of zero duration, whatever its amplitudes and drift, repeats a forward propagator and changes nothing else. Permuting the controls together with the columns of the amplitudes leaves the forward propagators unchanged and permutes the derivatives. A further control whose amplitudes vanish changes neither the propagators nor the derivatives by the other controls. A pulse followed by its reversal with all Hamiltonians negated retraces the evolution and ends with the initial operator.", "quantifier": "all systems, drifts, controls, amplitudes and time grids, initial operators or states, spectral (Hermitian) or expm exponentials", "why_tests_cant": "relates results for different numbers of steps and controls, over a continuum of amplitudes", "anchors": ["qopt/solver_algorithms.py:SchroedingerSolver._compute_propagation", "qopt/solver_algorithms.py:Solver._compute_forward_propagation", "qopt/solver_algorithms.py:SchroedingerSolver._compute_dyn_gen"]}
{"id": "C116", "title": "Accuracy of the grape approximation", "statement": "With frechet_deriv_approx_method='grape' the solver replaces the derivative of the propagator exp(-i tau H) by the amplitude of a control C by -i tau C exp(-i tau H). For Hermitian Hamiltonians the entry for step t and control c differs from the exact derivative of the propagator by at most tau_t^2/2 times the operator norm of the commutator [H_t, C_c] (so it is exact if they commute). Consequently OperationNoiseInfidelity.grad() on a SchroedingerSMonteCarlo solver with 'grape' differs, entry by entry, from the total derivative of OperationNoiseInfidelity.costs() by at most tau_t^2 times the mean over the noise traces of the norm of [H_t^k, C_c]. This should hold for both settings of neglect_systematic_errors.", "quantifier": "for all dimensions, Hermitian drifts, controls and noise operators, step durations, amplitudes, numbers of steps, controls and traces, all noise samples, unitary initial states and targets, and computational subspaces (without map_to_closest_unitary on a subspace)", "why_tests_cant": "A test compares two gradients on some pulses with a tolerance; the bound has to hold for all Hamiltonians and durations, and the exception of the default setting depends on the relation between the numbers of steps and controls, which tests with equal numbers do not reveal.", "anchors": ["qopt/solver_algorithms.py:965-976", "qopt/solver_algorithms.py:1422-1445", "qopt/cost_functions.py:1424-1454"]}
{"id": "C117", "title": "How much noise and amplitude errors can change the infidelity", "statement": "For a closed system with Hermitian Hamiltonians, a unitary initial state and a unitary target: two pulses whose amplitudes differ by delta give values of OperationInfidelity.costs() which differ by at most 2 sum_t |tau_t| sum_c |delta_tc| |C_c| (operator norms of the controls), and every entry of OperationInfidelity.grad() has an absolute value of at most 2 |tau_t| |C_c|. If OperationInfidelity.costs() of a pulse is 0 (no computational states), then its gradient is zero and every pulse with amplitude errors delta has an infidelity of at most (sum_t |tau_t| sum_c |delta_tc| |C_c|)^2. With neglect_systematic_errors=False OperationNoiseInfidelity.costs() differs from OperationInfidelity.costs() of the same pulse by at most twice the mean over the noise traces of sum_t |tau_t| sum_j |eta_jkt| |N_j|. With neglect_systematic_errors=True and no computational states the value lies between zero and the mean over the traces of the square of this sum, so it is of second order in the noise.", "quantifier": "for all dimensions, Hermitian drifts, controls and noise operators, step durations, amplitudes, numbers of steps, controls and traces, all noise samples, serial and parallel evaluation, unitary initial states and targets, and (first three claims) computational subspaces (without map_to_closest_unitary on a subspace); exponential_method 'Frechet' (the default) and solver options for which the results do not depend on the order of the reads (as for the defaults)", "why_tests_cant": "A test evaluates a few pulses and noise samples; a bound on the sensitivity concerns all pairs of pulses and all noise samples.", "anchors": ["qopt/cost_functions.py:1171-1275", "qopt/cost_functions.py:1310-1454", "qopt/solver_algorithms.py:965-976"]}
{"id": "C118", "title": "A gate of small infidelity is good for every initial state", "statement": "For a closed system with Hermitian Hamiltonians and a unitary target T, compare OperationInfidelity.costs() of a pulse, on a solver started with the identity, with StateInfidelity.costs() of the same pulse and solver started with a normalised state psi of the computational subspace (or of the whole space) and with target T psi. For every orthonormal basis of states the mean of the state infidelities is at most the operation infidelity, hence the infidelity of every state is at most the dimension times the operation infidelity. LeakageError.costs() is at most OperationInfidelity.costs() for the same computational states. The converse is wrong: all states of a basis can be mapped perfectly although the operation infidelity is 1.", "quantifier": "for all dimensions, Hermitian drifts and controls, step durations, amplitudes, unitary targets, computational subspaces, initial states and orthonormal bases (without map_to_closest_unitary on a subspace); exponential_method 'Frechet' (the default) and solver options for which the results do not depend on the order of the reads (as for the defaults)", "why_tests_cant": "A test compares the two cost functions for a few pulses and states; the inequality concerns every state, and state and gate are computed by different code paths (bra, ket and truncation on one side, trace of a truncated operator on the other).", "anchors": ["qopt/cost_functions.py:405-464", "qopt/cost_functions.py:703-746", "qopt/cost_functions.py:989-1038", "qopt/cost_functions.py:1171-1275", "qopt/cost_functions.py:1629-1692"]}
{"id": "C119", "title": "With commuting Hamiltonians only the area of the pulse counts", "statement": "If the drift and control Hamiltonians of a closed system all commute, the final operator a solver computes is the exponential of -i times the Hamiltonian integrated over the pulse, applied to the initial state. Hence two pulses with the same integrated Hamiltonian, even of different durations and numbers of time steps, give the same OperationInfidelity.costs(), and the entries of OperationInfidelity.grad() for one control are proportional to the step durations (equal for equal durations).", "quantifier": "for all dimensions, commuting drift and control operators, step durations, amplitudes, targets, computational subspaces and solver states after any sequence of calls; exponential_method 'Frechet', the default (without map_to_closest_unitary on a subspace); gradients: frechet_deriv_approx_method None and an amplitude function that reaches all amplitudes (as without one)", "why_tests_cant": "A test compares particular pulses; the claim is about every pulse, every splitting into time steps and every commuting family of operators.", "anchors": ["qopt/solver_algorithms.py:885-1012", "qopt/cost_functions.py:1171-1275"]}
{"id": "C120", "title": "The numbers of evaluations an optimizer reports", "statement": "As long as no evaluation raises an exception, the optimizer has called the simulator exactly once for each cost and Jacobian evaluation the numerical optimiser asked for, starting afresh with prepare_optimization. When the time limit ends the optimisation, num_iter of the result is the number of completed cost evaluations and equals the number of entries of costs and parameters in the summary. Producing this result evaluates the Jacobian once more if Jacobians are used, so that the summary then contains one gradient more than was asked for.", "quantifier": "for all sequences of cost and Jacobian evaluations and of overwritten parameter vectors, all simulators, weights, shapes and time limits", "why_tests_cant": "The number of evaluations depends on the history an external optimiser produces; a test runs a few histories and the time limit is hard to hit reproducibly.", "anchors": ["qopt/optimize.py:193-267", "qopt/optimize.py:290-360"]}
{"id": "C121", "title": "The infidelity is smooth with explicit constants", "statement": "For closed systems with Hermitian Hamiltonians and unitary targets, with a_tc = |duration of step t| * ||control c||: two gradients returned by OperationInfidelity.grad differ in entry (t, c) by at most 4 a_tc times the sum of a_t'c' |change of amplitude (t', c')|; the infidelity differs from its linear approximation by at most twice the square of that sum; a step of width eta against the gradient reduces the infidelity by at least eta/2 times the squared length of the gradient whenever eta <= 1 / (4 sum a_tc^2). The squared length of the gradient is at most 8 (sum a_tc^2) times the infidelity, so it vanishes for a perfect gate. The same holds for OperationNoiseInfidelity with any number of noise traces, with four times these constants if systematic errors are neglected. For a simulator whose parameters are the amplitudes, numeric_gradient with step delta_eps, symmetric or not, differs from the analytic Jacobian by at most 2 a_tc^2 |delta_eps|, so that numeric_jacobian=True gives the optimiser the gradient up to 2 a_tc^2 1e-8 (in exact arithmetic).", "quantifier": "for all dimensions, numbers of steps and controls, Hermitian Hamiltonians, amplitudes, unitary targets, computational subspaces, noise samples, step widths (without map_to_closest_unitary on a subspace); exponential_method 'Frechet' (the default) and solver options for which the results do not depend on the order of the reads (as for the defaults); frechet_deriv_approx_method None and an amplitude function that reaches all amplitudes (as without one) for the gradients", "why_tests_cant": "The constants bound all second derivatives over the whole amplitude space; finitely many evaluations cannot bound them and a test of finite differences only checks a tolerance at single points.", "anchors": ["qopt/cost_functions.py:1171-1275", "qopt/cost_functions.py:1310-1454", "qopt/simulator.py:338-390"]}
{"id": "C122", "title": "Accuracy of the approximate derivative methods", "statement": "With exponential_method 'approx', 'first_order', 'second_order' or 'third_order', skew Hermitian generators A with pairwise different eigenvalues, skew Hermitian directions D and a time step tau, DenseOperator.dexp returns the exact exponential, and a derivative which differs from the true one in the operator norm by at most (|tau| ||D||)^2 eps/2, |tau| ||D|| (|tau| ||A||), |tau| ||D|| (|tau| ||A||)^2/2 and |tau| ||D|| (|tau| ||A||)^3/6 respectively (eps is the step width of 'approx', 1e-10 in the solvers). Consequently OperationInfidelity.costs() still returns the exact infidelity of the pulse for these methods, and every entry of OperationInfidelity.grad() differs from the partial derivative of the infidelity by at most twice that bound with A the Hamiltonian of the step and D the control.", "quantifier": "for all dimensions, Hermitian Hamiltonians whose sums have pairwise different eigenvalues, amplitudes, numbers of steps and controls, unitary targets, computational subspaces, real time steps (without map_to_closest_unitary on a subspace); gradients: calculate_propagator_derivatives=True and frechet_deriv_approx_method None", "why_tests_cant": "A test compares the approximate derivative with a reference at single points and tolerances; the order of the error and its constant for all generators is an analytic statement.", "anchors": ["qopt/matrix.py:1148-1274", "qopt/solver_algorithms.py:915-953", "qopt/cost_functions.py:1171-1275"]}
{"id": "C123", "title": "Infidelities of sequences of gates", "statement": "Play several optimised pulses one after the other in one solver (concatenated drifts, time steps and amplitudes) and compare with the product of their targets, the target of the last pulse leftmost. Then the square root of OperationInfidelity.costs() of the sequence is at most the sum of the square roots of the infidelities of the single pulses, also when the infidelity is taken on a computational subspace and the pulses leave it. In particular a gate repeated k times has at most k^2 times its infidelity, and a bad gate is not hidden by a good one before or after it: the square root of the infidelity of two gates is at least the difference of the square roots.", "quantifier": "for all dimensions, Hermitian drifts and controls, numbers of gates, time steps and amplitudes, unitary targets, computational subspaces (without map_to_closest_unitary on a subspace); exponential_method 'Frechet' (the default) or 'spectral' with is_skew_hermitian, and solver options for which the results do not depend on the order of the reads (as for the defaults); the identity (the default) as initial operator", "why_tests_cant": "Tests evaluate single pulses; how errors of gates accumulate in all circuits built from them is an inequality between infinitely many sequences.", "anchors": ["qopt/cost_functions.py:1171-1275", "qopt/cost_functions.py:703-746", "qopt/solver_algorithms.py:883-913"]}
{"id": "C124", "title": "How much dissipation can change the infidelity", "statement": "Evaluate a pulse with LindbladSolver (Lindblad operators L_k, rates w_tk from the prefactor function or one) and with a closed system solver with the same Hamiltonian. The two values of OperationInfidelity differ by at most exp(s) - 1, where s = 2 sum_t |dt_t| sum_k |w_tk| ||L_k||^2 is the accumulated strength of the dissipation (operator norm), for every pulse and every target, on the whole space or a computational subspace. For s <= 1 the difference is at most 2 s, so optimising the closed system is safe when the dissipation is weak. The order is right: dephasing of strength s gives an idle qubit the infidelity (1 - exp(-s))/2.", "quantifier": "for all dimensions, Hermitian drifts and controls, Lindblad operators, prefactor functions, time steps, amplitudes, amplitude functions, unitary targets and computational subspaces; exponential_method 'Frechet', the default; the identity (the default) as initial operator", "why_tests_cant": "Tests compare single values; a bound valid for all pulses and all Lindblad operators is an inequality between exponentials of super operators.", "anchors": ["qopt/solver_algorithms.py:1778-2105", "qopt/cost_functions.py:833-923", "qopt/cost_functions.py:1171-1291"]}
{"id": "C125", "title": "What no pulse can reach", "statement": "Lower limits of OperationInfidelity (closed system, solver started with the identity) that hold for every pulse. (a) Speed limit: the square root of the infidelity is at least sqrt(infidelity of doing nothing) - sum_t |dt_t| ||H_t - e_t||, with the operator norm of the total Hamiltonian of each step and an energy zero e_t that may be chosen freely; on the whole space or a computational subspace. A pulse which is too short or too weak cannot implement the gate. (b) Conservation law: if an operator Q commutes with all drifts and controls, then ||TQ - QT||_F^2 <= 4 d ||Q||^2 times the infidelity, for every pulse; so a target T which does not commute with Q keeps the infidelity of all pulses away from zero by a constant known in advance.", "quantifier": "for all dimensions, Hermitian drifts and controls, time steps, amplitudes, amplitude functions, unitary targets, conserved operators (without map_to_closest_unitary on a subspace); exponential_method 'Frechet' (the default) or 'spectral' with is_skew_hermitian, and solver options for which the results do not depend on the order of the reads (as for the defaults)", "why_tests_cant": "No amount of optimisation runs shows that a cost value cannot be reached; the claim is about all pulses.", "anchors": ["qopt/solver_algorithms.py:265-660", "qopt/cost_functions.py:775-830", "qopt/cost_functions.py:1171-1275"]}
{"id": "C126", "title": "Noise infidelities with and without systematic errors", "statement": "OperationNoiseInfidelity reports with neglect_systematic_errors=True the effect of the noise alone, and with False the mean infidelity to the target. On the whole space the square roots of the two results and of OperationInfidelity of the noiseless evolution satisfy the triangle inequalities, for every list of traces. Without noise nothing is left when systematic errors are neglected. A target is not needed then, and does not matter: target=None gives the same costs and gradient as any target with systematic errors neglected; this holds for StateNoiseInfidelity as well. Fidelity measures other than 'entanglement' are rejected.", "quantifier": "for all dimensions, unitary noiseless and noisy evolutions, numbers of traces, targets, computational states and options", "why_tests_cant": "Tests compare a few noise realisations; the inequalities hold for all of them, and the combinations of options are not tested.", "anchors": ["qopt/cost_functions.py:1109-1176", "qopt/cost_functions.py:1238-1262", "qopt/cost_functions.py:1320-1454"]}
{"id": "C127", "title": "Open systems with normal Lindblad operators only mix", "statement": "With Hermitian Hamiltonians, normal Lindblad operators (dephasing, depolarisation, random Pauli flips), non-negative prefactors and non-negative time steps, the forward propagators of LindbladSolver leave the totally mixed state unchanged at every time; the purity tr(rho^2) of every state never increases from one time to a later one, and the Hilbert-Schmidt distance of two states never grows.", "quantifier": "for all dimensions, Hermitian Hamiltonians, lists of normal Lindblad operators, prefactor functions with non-negative values, non-negative durations, pulses, initial states and pairs of times; exponential_method 'Frechet', the default; the identity (the default) as initial operator", "why_tests_cant": "A test propagates one state with one channel; the monotonicity between any two times of any pulse cannot be enumerated.", "anchors": ["qopt/solver_algorithms.py:1875-1929", "qopt/solver_algorithms.py:2062-2105", "qopt/solver_algorithms.py:915-953"]}
{"id": "C128", "title": "Pulses of an open system compose", "statement": "For a LindbladSolver whose prefactors (if any) are computed per time step: playing two pulses after each other gives the forward propagators of the first followed by those of the second started where the first ended, in total the product of the two super operators in order of time. Cutting every step into k equal parts (oversampling) changes nothing at the ends of the steps; a step can be cut at any time; a step of zero duration has no effect.", "quantifier": "for all dimensions, drift and control Hamiltonians, Lindblad operators, prefactor functions acting per step, durations (also negative), amplitudes, parameters, numbers of steps and parts; exponential_method 'Frechet', the default", "why_tests_cant": "The order of the factors and the invariance under refinement are statements about all pulses; a test with commuting or constant pulses does not see a wrong order or a prefactor attached to the wrong step.", "anchors": ["qopt/solver_algorithms.py:915-953", "qopt/solver_algorithms.py:1875-1929", "qopt/solver_algorithms.py:2062-2105"]}
{"id": "C129", "title": "Subsystems which do not interact", "statement": "When the Hamiltonians of two subsystems are combined with kron (A x 1 for the first, 1 x B for the second) the forward propagators of the combined solver are, at every time, the Kronecker products of those of the two solvers. OperationInfidelity of the pair of gates with target T1 x T2 is 1 - (1 - I1)(1 - I2), and its gradient with respect to the controls of one subsystem is the gradient of that subsystem alone times the fidelity of the other; the controls of the first subsystem come first.", "quantifier": "for all dimensions of the two subsystems, drifts, controls, pulses, initial operators, targets and (Hermitian or not) Hamiltonians; exponential_method 'Frechet' (the default), for the propagators and costs also 'spectral' with is_skew_hermitian and Hermitian operators; solver options for which the results do not depend on the order of the reads (as for the defaults)", "why_tests_cant": "A test with two qubits and one pulse cannot exclude a wrong order of the factors in kron, of the controls or of time for other dimensions; the identities are used to simulate crosstalk-free devices of any size.", "anchors": ["qopt/matrix.py:961-970", "qopt/solver_algorithms.py:862-953", "qopt/cost_functions.py:1171-1316"]}
{"id": "C130", "title": "A solver keeps the pulse it was given", "statement": "set_optimization_parameters(y) takes over the values of y: what the caller writes into the array y afterwards does not change the propagators, forward and reversed propagators and derivatives read from the solver, until the pulse is set again.", "quantifier": "every solver configuration, any number of arrays, every program of setting pulses, overwriting entries of arrays and reading results", "why_tests_cant": "whether an array is shared is invisible until somebody overwrites it, and the results are computed at the first read, which may come long after the pulse was set", "anchors": ["qopt/solver_algorithms.py:Solver.set_optimization_parameters", "qopt/transfer_function.py:IdentityTF.__call__", "qopt/amplitude_functions.py:IdentityAmpFunc.__call__"]}
{"id": "C131", "title": "Without a pulse there are no costs", "statement": "Simulator.wrapped_cost_functions() without an argument raises if the attribute pulse was never assigned; it never returns the costs of a pulse which was given to some earlier call. Such calls do not disturb later evaluations with a pulse.", "quantifier": "one Schroedinger solver (any exponential method and approximation), any cost functions on it, every sequence of evaluations of costs and Jacobians with and without a pulse", "why_tests_cant": "the outcome depends on the number of earlier calls without a pulse, and exceptions in between are usually caught by the caller", "anchors": ["qopt/simulator.py:Simulator.wrapped_cost_functions", "qopt/solver_algorithms.py:SchroedingerSolver.set_optimization_parameters"]}
{"id": "C132", "title": "UnaryAnalyticAmpFunc applies its function to every entry", "statement": "UnaryAnalyticAmpFunc(f, df)(x) has the entries f(x[t][c]), each of them depending on that entry of the pulse only, and derivative_by_chain_rule multiplies the derivative of every function by amplitude (t, c) with df(x[t][c]).", "quantifier": "every pair of Python functions returning bool, int, float or complex numbers, every pulse", "why_tests_cant": "whether the result is right depends on the type of the value at the first entry of the pulse; a function with branches of different types fails only for pulses which start in one branch and reach the other", "anchors": ["qopt/amplitude_functions.py:UnaryAnalyticAmpFunc.__init__", "qopt/amplitude_functions.py:UnaryAnalyticAmpFunc.__call__", "qopt/amplitude_functions.py:UnaryAnalyticAmpFunc.derivative_by_chain_rule"]}
{"id": "C133", "title": "Results of optimisation runs", "statement": "The result of run_optimization holds a pulse which was simulated in the run as final_parameters, the costs the simulator returns for it as final_cost (their weighted sum for the scalar optimizers, the weighted array for LeastSquaresOptimizer), the labels of these costs, the initial pulse as init_parameters, and it is not worse than the initial pulse; the same holds if the time limit ends the run.", "quantifier": "every algorithm that asks for costs and Jacobians in any adaptive order and returns a point it asked for that is not worse than the initial one, every simulator without memory, all weights, methods, clocks and initial pulses", "why_tests_cant": "the points an algorithm visits depend on all values it was given before; the wrappers reshape, weight and record in between, and results after a time-out come from another branch", "anchors": ["qopt/optimize.py:ScalarMinimizingOptimizer.run_optimization", "qopt/optimize.py:LeastSquaresOptimizer.run_optimization", "qopt/optimize.py:Optimizer.write_state_to_result", "qopt/optimization_data.py:OptimizationResult.__init__"]}
{"id": "C134", "title": "Termination conditions and flags reach the algorithm", "statement": "The termination conditions, use_jacobian_function and store_optimizer of an optimizer are respected by its runs with every method: at most max_iterations iterations and max_cost_func_calls evaluations, no evaluation after max_wall_time, Jacobians exactly if they are to be used, and the optimizer is stored in the result exactly if store_optimizer is set.", "quantifier": "every algorithm which keeps to the limits it is given, all conditions, methods, clocks, simulators and initial pulses", "why_tests_cant": "an option which is not passed on shows only in runs which would exceed the limit, with one of the many methods of scipy", "anchors": ["qopt/optimize.py:ScalarMinimizingOptimizer.run_optimization", "qopt/optimize.py:LeastSquaresOptimizer.run_optimization", "qopt/optimize.py:Optimizer.cost_func_wrapper"]}
{"id": "C135", "title": "Bounds of the pulse", "statement": "All pulses simulated in a run keep the bounds of the optimizer entry by entry; bounds=None allows any real value; the LeastSquaresOptimizer rejects an initial pulse outside of them.", "quantifier": "every algorithm that asks only within the bounds it is given, all lower and upper bounds including infinite ones, simulators, clocks and initial pulses of any shape", "why_tests_cant": "whether a bound belongs to the entry it was given for depends on the flattening order, and whether the bounds are accepted depends on checks inside scipy", "anchors": ["qopt/optimize.py:ScalarMinimizingOptimizer.run_optimization", "qopt/optimize.py:LeastSquaresOptimizer.run_optimization", "qopt/optimize.py:LeastSquaresOptimizer.__init__", "qopt/optimize.py:Optimizer.prepare_optimization"]}
{"id": "C136", "title": "Continuous controls and the time grid", "statement": "The propagator and the OperationInfidelity computed for amplitudes sampled from continuous controls approximate those of the exact solution of the Schroedinger equation: exactly for controls which are constant during each time step, with an error of first order in the longest time step for controls with bounded rates of change sampled anywhere in the steps, and of second order for smooth controls sampled in the middle of the steps; the exact solution is determined by the initial operator and the Hamiltonian during the pulse; for controls which are only continuous it exists and every sufficiently fine time grid, sampled anywhere in its steps, reproduces it up to any required accuracy.", "quantifier": "all Hermitian drifts and controls, all time grids (also not equidistant, also after oversampling), all continuous controls with the stated regularity, target gates, computational subspaces, states of the solver cache (without map_to_closest_unitary on a subspace); exponential_method 'Frechet' (the default) and solver options for which the results do not depend on the order of the reads (as for the defaults); step durations not negative; the convergence for continuous controls with a drift which does not depend on time", "why_tests_cant": "the exact evolution under time-dependent Hamiltonians has no closed form to compare with, and the order of an error is a statement about all time grids", "anchors": ["qopt/solver_algorithms.py:SchroedingerSolver._compute_propagation", "qopt/solver_algorithms.py:SchroedingerSolver._compute_dyn_gen", "qopt/cost_functions.py:OperationInfidelity.costs"]}
{"id": "C137", "title": "Labelled curves of plot_costs", "statement": "Analyser.plot_costs draws for every cost function its recorded values, in the order of the evaluations, under its own label, also with the default labels of the cost functions.", "quantifier": "every list of cost functions, numbers of values and labels, sequences of evaluated pulses and stored runs", "why_tests_cant": "labels and values are paired only by position after two independent concatenations; a wrong pairing raises no error and draws a plausible curve", "anchors": ["qopt/analyser.py:Analyser.plot_costs", "qopt/simulator.py:Simulator.cost_indices", "qopt/simulator.py:Simulator.wrapped_cost_functions", "qopt/cost_functions.py:OperatorFilterFunctionInfidelity.__init__"]}
{"id": "C138", "title": "The Lindblad solver solves the master equation", "statement": "For Lindblad operators with or without prefactor function, the forward propagators of LindbladSolver map every initial state to the value, at every time of the grid, of the solution of the Lindblad master equation whose Hamiltonian and rates are those of the respective time step; such a solution exists for every initial state and is determined by it.", "quantifier": "every dimension, Lindblad operators, prefactor function, drift and control Hamiltonians, number and durations of time steps, amplitudes and every solution of the differential equation; exponential_method 'Frechet', the default; Hermitian Hamiltonians, durations not negative, the identity (the default) as initial operator", "why_tests_cant": "tests compare with a few closed-form examples; the exponential of a vectorised generator with a wrong transpose, order or sign still yields trace preserving maps", "anchors": ["qopt/solver_algorithms.py:LindbladSolver._compute_dyn_gen", "qopt/solver_algorithms.py:LindbladSolver._calc_diss_sup_op", "qopt/solver_algorithms.py:Solver._compute_propagation", "qopt/solver_algorithms.py:Solver._compute_forward_propagation"]}
{"id": "C139", "title": "Sampled controls and rates of an open system", "statement": "If the controls and rates of an open system vary continuously, the expectation value of every observable A computed with the states of LindbladSolver (one Hamiltonian and one set of non-negative rates for each time step) deviates from the exact one, at every time of the grid, by at most ||A|| times the time integral of 2 ||H(s) - H_t|| + sum_k |w_k(s) - w_tk| 2 ||L_k||^2; for Lipschitz controls sampled anywhere in the time steps the error is at most proportional to the longest step, without factors growing exponentially with the duration; for controls which are only continuous, and rates which are continuous functions of the amplitudes, every density matrix has exactly one exact evolution, which remains a density matrix, and every sufficiently fine time grid reproduces its expectation values up to any required accuracy.", "quantifier": "every dimension, Lindblad operators, prefactor functions, durations, controls, exact solutions that are density matrices, and observables; exponential_method 'Frechet', the default; Hermitian Hamiltonians, durations not negative, the identity (the default) as initial operator; the Lipschitz bound without prefactor function; the convergence for continuous controls with a drift which does not depend on time", "why_tests_cant": "the error of a discretisation has to be bounded for all continuous controls, a test only sees the difference for one control and one refinement", "anchors": ["qopt/solver_algorithms.py:LindbladSolver._compute_dyn_gen", "qopt/solver_algorithms.py:LindbladSolver._calc_diss_sup_op", "qopt/solver_algorithms.py:Solver._compute_propagation", "qopt/solver_algorithms.py:Solver._compute_forward_propagation"]}
{"id": "C140", "title": "The best of several runs", "statement": "If the results of several runs of one optimizer are appended to a data container, Analyser.n_least_square is the number of the run whose final pulse has the smallest total costs, for all runs with a result.", "quantifier": "every simulator without memory, number of costs, weights, algorithm which returns a point it evaluated, list of initial pulses and clocks", "why_tests_cant": "the comparison is made between arrays written by different code paths (end of the algorithm, time limit), whose shapes are not checked when they are stored; tests use literal arrays of costs", "anchors": ["qopt/analyser.py:Analyser.n_least_square", "qopt/data_container.py:DataContainer.append_optim_result", "qopt/optimize.py:Optimizer.write_state_to_result", "qopt/optimize.py:LeastSquaresOptimizer.run_optimization", "qopt/optimize.py:ScalarMinimizingOptimizer.run_optimization"]}
{"id": "C141", "title": "The gradient of OperatorMatrixNorm", "statement": "OperatorMatrixNorm.grad returns in the mode 'vector' the derivative of the costs with respect to the control amplitudes, and raises NotImplementedError in the other modes.", "quantifier": "every solver, pulse, target, mode and dimension", "why_tests_cant": "whether the shapes of the arrays fit together depends on dimension, number of controls and type of the durations in combination", "anchors": ["qopt/cost_functions.py:OperatorMatrixNorm.grad", "qopt/cost_functions.py:OperatorMatrixNorm.costs"]}
{"id": "C142", "title": "Affine amplitude functions are a choice of control Hamiltonians", "statement": "A solver whose CustomAmpFunc combines the parameters of each time step linearly and adds constants computes the same forward propagators as a solver with the default amplitude function, whose controls are the corresponding combinations and whose drift contains the constants; Simulator.wrapped_cost_functions and wrapped_jac_function return the same arrays for both.", "quantifier": "every system size, matrix of coefficients, constants, numbers of parameters and controls, transfer function, pulse, and any number of solvers and operation, state and leakage infidelities; exponential_method 'Frechet' (the default) with frechet_deriv_approx_method None", "why_tests_cant": "the two ways share no code for the amplitudes and their derivatives; agreement for all coefficients and pulses cannot be sampled", "anchors": ["qopt/amplitude_functions.py:CustomAmpFunc", "qopt/solver_algorithms.py:SchroedingerSolver._compute_dyn_gen", "qopt/simulator.py:Simulator.wrapped_cost_functions", "qopt/simulator.py:Simulator.wrapped_jac_function"]}
{"id": "C143", "title": "The Gaussian filter", "statement": "GaussianMTF returns, after set_times, the pulse filtered with a normal distribution of standard deviation sqrt(2)/omega, with the start value before and the end value after it, sampled in the pulse: the amplitudes stay within the range of the pulse and the boundary values and a constant signal is not changed; set_times accepts steps of equal duration only; gradient_chain_rule returns the derivatives by the parameters of the pulse.", "quantifier": "every omega, boundary values, over sample rate, bound type, sequence of calls, number of steps and controls, pulse", "why_tests_cant": "the transfer matrix is a table of error functions whose rows sum to one only together with the boundary terms; that nothing done with the object makes it usable is a statement about all histories", "anchors": ["qopt/transfer_function.py:GaussianMTF", "qopt/transfer_function.py:GaussianMTF._calculate_transfer_matrix", "qopt/transfer_function.py:GaussianMTF.gradient_chain_rule", "qopt/transfer_function.py:GaussianMTF.set_times"]}
{"id": "C144", "title": "Levels left out of the simulation", "statement": "Truncating all Hamiltonians and the initial operator with truncate_to_subspace before the solver is created, instead of passing computational_states to the cost function, makes no difference if no Hamiltonian and not the initial operator leads from the listed states to another one: the forward propagators of the small solver are the truncated forward propagators at all times, and Simulator.wrapped_cost_functions and wrapped_jac_function return the same numbers for OperationInfidelity and StateInfidelity; for Hermitian Hamiltonians LeakageError.costs() is 0 and its gradient is zero for every pulse. If the levels are coupled, the square roots of the two values of OperationInfidelity differ by at most S = sum_t |tau_t| ||V_t||, where V_t is the part of the total Hamiltonian of step t between the listed states and the others, and LeakageError.costs() is at most S^2.", "quantifier": "for all dimensions, duplicate-free lists of states in every order, drifts, controls, transfer and amplitude functions, pulses, targets; exponential_method 'Frechet' (the default), for propagators and costs also 'spectral' with is_skew_hermitian and Hermitian operators; solver options for which the results do not depend on the order of the reads (as for the defaults); the bounds for Hermitian Hamiltonians and unitary targets; without map_to_closest_unitary on the subspace", "why_tests_cant": "a test compares two simulations of one system; that leaving out levels is harmless, or by how much it is not, is a statement about all Hamiltonians and pulses", "anchors": ["qopt/matrix.py:DenseOperator.truncate_to_subspace", "qopt/cost_functions.py:OperationInfidelity.costs", "qopt/cost_functions.py:OperationInfidelity.grad", "qopt/cost_functions.py:StateInfidelity.costs", "qopt/cost_functions.py:LeakageError.costs", "qopt/cost_functions.py:LeakageError.grad"]}
{"id": "C145", "title": "Inexact Hamiltonians and crosstalk", "statement": "If two SchroedingerSolvers on the same space have the same initial operator and the same time steps but different Hermitian drifts, control Hamiltonians or pulses, their forward propagators differ in the operator norm at every time by at most S = sum_t |tau_t| ||H_t - H'_t|| up to this time, where H_t is the total Hamiltonian of step t, and the square roots of the values of OperationInfidelity (and of StateInfidelity) which they report differ by at most S. In particular, pulses found for two subsystems separately keep their quality if the subsystems interact weakly: with drift A x 1 + 1 x B + D and control Hamiltonians A_c x 1 + X_c, 1 x B_c + X_c, the infidelity c of the pair of gates satisfies |sqrt(c) - sqrt(1 - (1-c1)(1-c2))| <= sum_t |tau_t| ||D_t + sum_c u_tc X_c||.", "quantifier": "for all dimensions, Hermitian drifts, controls and interactions, different numbers of controls, time steps, pulses, unitary targets and subspaces; exponential_method 'Frechet' (the default), for propagators and costs also 'spectral' with is_skew_hermitian and Hermitian operators; solver options for which the results do not depend on the order of the reads (as for the defaults) (without map_to_closest_unitary on a subspace)", "why_tests_cant": "a test perturbs one Hamiltonian by one amount; that a pulse tolerates every error of the model up to a given size is a statement about all of them", "anchors": ["qopt/solver_algorithms.py:Solver._compute_forward_propagation", "qopt/solver_algorithms.py:SchroedingerSolver._compute_propagation", "qopt/matrix.py:DenseOperator.kron", "qopt/cost_functions.py:OperationInfidelity.costs", "qopt/cost_functions.py:StateInfidelity.costs"]}
{"id": "C146", "title": "plot_pulse shows the pulse", "statement": "plot_pulse draws one figure per control, labelled with the given axis labels, in which the rectangle of each time step of the transferred pulse covers exactly this step and has the height of the amplitude, and the outlines of the raw pulse cover its steps behind the padding at the start.", "quantifier": "every transfer function, bound type, oversampling, number of controls and steps, durations, pulse", "why_tests_cant": "the rectangles are positioned with sums over the time steps and the padding; whether they lie on the grid depends on durations no set of example plots exhausts", "anchors": ["qopt/transfer_function.py:TransferFunction.plot_pulse", "qopt/transfer_function.py:TransferFunction.num_padding_elements", "qopt/transfer_function.py:TransferFunction.set_times"]}
{"id": "C147", "title": "Equivalent descriptions of the dissipation", "statement": "LindbladSolver returns the same propagators, derivatives, infidelities and gradients for physically equivalent descriptions of the dissipation: (a) without prefactor function the Lindblad operators may be replaced by combinations with the entries of a unitary matrix or isometry; (b) a factor c in front of a Lindblad operator is the same as |c|^2 in its prefactor and the derivatives of the prefactor; (c) without prefactor function a multiple of the identity added to Lindblad operators is the same as the additional Hamiltonian (i/2) sum (a* L - a L^dagger) in the drift; (d) the order of the operators does not matter if the prefactors are given in the same order; (e) the super operators of the Lindblad operators may be given instead.", "quantifier": "every dimension, Hamiltonians (Hermitian or not), Lindblad operators, unitary or isometric mixing matrix, factors, shifts, permutations, prefactor functions, durations, pulses, exponential methods, targets and computational subspaces", "why_tests_cant": "the freedom in the choice of the operators is continuous and the results are compared for all pulses and grids", "anchors": ["qopt/solver_algorithms.py:LindbladSolver._calc_diss_sup_op", "qopt/solver_algorithms.py:LindbladSolver._calc_diss_sup_op_deriv", "qopt/solver_algorithms.py:LindbladSolver._compute_dyn_gen", "qopt/solver_algorithms.py:LindbladSolver._compute_derivative_directions"]}
{"id": "C148", "title": "Open subsystems which do not interact", "statement": "When the Hamiltonians and Lindblad operators of two subsystems are combined with kron (A x 1 for the first, 1 x B for the second, the controls and operators of the first subsystem first) and every rate only depends on its own subsystem, LindbladSolver computes for product states at every time the product of the states it computes for the two subsystems. For every state of the pair, also with correlations, the reduced state of either subsystem evolves as computed for that subsystem alone. OperationInfidelity with target T1 x T2 is 1 - (1 - I1)(1 - I2), and its gradient with respect to the controls of one subsystem is the gradient of that subsystem alone times the fidelity of the other.", "quantifier": "every dimension of the two subsystems, drifts, controls, Lindblad operators, prefactor functions computed for each time step, durations, pulses, states, targets (unitary or not); default method expm_frechet; the reduced states for Hermitian Hamiltonians of the other subsystem, started with the identity; infidelities for the first subsystem started with the identity", "why_tests_cant": "the index order of vectorised density matrices of composite systems only shows up in dimensions a test with one qubit does not have, and correlations, rates and pulses are arbitrary", "anchors": ["qopt/solver_algorithms.py:LindbladSolver._calc_diss_sup_op", "qopt/solver_algorithms.py:LindbladSolver._compute_dyn_gen", "qopt/solver_algorithms.py:LindbladSolver._compute_derivative_directions", "qopt/cost_functions.py:OperationInfidelity.costs", "qopt/cost_functions.py:OperationInfidelity.grad"]}
{"id": "C149", "title": "Units, basis and zero of energy of open systems", "statement": "Describing an open system in other units (all Hamiltonians and rates a times as large, all durations divided by a), in another orthonormal basis (operators, initial operator and target transformed) and with constants added to the drift (a different one in each time step) does not change the results of LindbladSolver: the forward propagators and the states are those of the first description in the new basis, and OperationInfidelity and its gradient return the same numbers. The rates may be put into the Lindblad operators (times the square root) or into the prefactor function.", "quantifier": "every dimension, unitary change of basis, unit a != 0, energy offsets, Hamiltonians (Hermitian or not), Lindblad operators, prefactor functions computed for each time step, durations, pulses, states, targets (unitary or not); default method expm_frechet", "why_tests_cant": "the changes of description form a continuous family; a missing conjugate or a rate scaled like an energy instead of a rate only shows for generic complex operators", "anchors": ["qopt/solver_algorithms.py:LindbladSolver._calc_diss_sup_op", "qopt/solver_algorithms.py:LindbladSolver._compute_dyn_gen", "qopt/solver_algorithms.py:LindbladSolver._compute_derivative_directions", "qopt/cost_functions.py:OperationInfidelity.costs", "qopt/cost_functions.py:OperationInfidelity.grad"]}
{"id": "C150", "title": "A gate of an open system of small infidelity is good for every initial state", "statement": "Compute OperationInfidelity of a LindbladSolver started with the identity (on all states or on a computational subspace). For every orthonormal basis of the computational states, the mean over the basis of the state infidelities 1 - <T psi| rho |T psi>, where rho is the state which the evolution makes of psi, is at most this number; so every single computational state ends in the intended state up to the number of computational states times the infidelity. LeakageLiouville on the same computational states is at most the infidelity.", "quantifier": "every dimension, Hermitian Hamiltonians, Lindblad operators, nonnegative prefactors and durations, pulses, unitary targets, lists of distinct computational states, orthonormal bases and normalised states; default method expm_frechet", "why_tests_cant": "tests evaluate single states; the property bounds a continuum of initial states (superpositions included) by one number", "anchors": ["qopt/cost_functions.py:OperationInfidelity.costs", "qopt/cost_functions.py:entanglement_fidelity_super_operator", "qopt/cost_functions.py:LeakageLiouville.costs", "qopt/solver_algorithms.py:LindbladSolver._compute_dyn_gen"]}
{"id": "C151", "title": "Infidelities of sequences of gates of open systems", "statement": "Play several pulses one after the other in one LindbladSolver (concatenated drifts, time steps, amplitudes and transferred parameters) and compare with the product of their targets. The square root of OperationInfidelity.costs() of the sequence is at most the sum of the square roots of the infidelities of the single pulses, also on a computational subspace which the pulses leave. A gate repeated k times has at most k^2 times its infidelity. A bad gate is not hidden by a good one played before it; played after it, a dissipative gate which is perfect on the computational states may repair an error which left them (other than without dissipation, C123).", "quantifier": "every dimension, Hermitian Hamiltonians, Lindblad operators, nonnegative prefactors (computed for each time step) and durations, numbers of gates, pulses, unitary targets, lists of distinct computational states; default method expm_frechet; the identity (the default) as initial operator", "why_tests_cant": "how errors of gates accumulate in all circuits built from them is an inequality between infinitely many sequences, and with dissipation it does not follow from the unitary case", "anchors": ["qopt/cost_functions.py:OperationInfidelity.costs", "qopt/cost_functions.py:entanglement_fidelity_super_operator", "qopt/solver_algorithms.py:LindbladSolver._calc_diss_sup_op", "qopt/solver_algorithms.py:Solver._compute_forward_propagation"]}
{"id": "C152", "title": "Inexact Hamiltonians, amplitudes and rates of open systems", "statement": "Run two LindbladSolvers with the same time steps and Lindblad operators L_k but different Hermitian drifts, control Hamiltonians, pulses or rates. Their values of OperationInfidelity.costs() (on all states or on a computational subspace) differ by at most sum_t dt_t (2 |H_t - H'_t| + 2 sum_k |w_tk - w'_tk| |L_k|^2), with operator norms, total Hamiltonians H_t and rates w_tk of step t. At every time the expectation values of every observable A in every initial state differ by at most |A| times this sum so far. In particular amplitude errors delta cost at most 2 sum_t dt_t sum_c |delta_tc| |C_c|; dissipation changes the infidelity of a pulse of a closed system at most by its accumulated strength (C124 without the exponential); and two open subsystems with gates found separately have an infidelity within this sum of 1 - (1 - I_1)(1 - I_2) if the pair also has an interaction or crosstalk.", "quantifier": "every dimension, Hermitian Hamiltonians, Lindblad operators, nonnegative prefactors and durations, pulses, unitary targets, lists of distinct computational states, observables and density matrices; default method expm_frechet; the identity (the default) as initial operator; the bound by amplitude errors without prefactor function", "why_tests_cant": "a bound with explicit constants for all errors of all models cannot be sampled; a simulation checks one error of one system", "anchors": ["qopt/cost_functions.py:OperationInfidelity.costs", "qopt/cost_functions.py:entanglement_fidelity_super_operator", "qopt/solver_algorithms.py:LindbladSolver._compute_dyn_gen", "qopt/solver_algorithms.py:LindbladSolver._calc_diss_sup_op", "qopt/solver_algorithms.py:Solver._compute_forward_propagation"]}
{"id": "C153", "title": "What no pulse can reach in an open system", "statement": "With a LindbladSolver and Lindblad operators L_k at rates w_tk >= 0 the value of OperationInfidelity.costs() on all states is at least (1 - exp(-E)) / d^2 with E = sum_t dt_t sum_k w_tk (d sum_ij |L_k,ij|^2 - |tr L_k|^2), whatever the Hermitian Hamiltonians, the pulse and the unitary target. With constant rates this is one number for all pulses and targets, so an optimizer that goes below it cannot be right. The term of L_k is zero only if L_k is a multiple of the identity: with any other operator at a positive rate no gate has infidelity 0. The limit is exact to first order in E (dephasing idle qubit). On a computational subspace there is no such limit (dephasing does not affect a basis state).", "quantifier": "every dimension, Hermitian Hamiltonians, Lindblad operators, nonnegative rates and durations, pulses and unitary targets; default method expm_frechet; the identity (the default) as initial operator", "why_tests_cant": "a statement about all pulses and all targets at once; an optimization run can only fail to find a better pulse", "anchors": ["qopt/cost_functions.py:OperationInfidelity.costs", "qopt/cost_functions.py:entanglement_fidelity_super_operator", "qopt/solver_algorithms.py:LindbladSolver._compute_dyn_gen", "qopt/solver_algorithms.py:LindbladSolver._calc_diss_sup_op", "qopt/solver_algorithms.py:Solver._compute_forward_propagation"]}
{"id": "C154", "title": "Noise infidelities of sequences of gates", "statement": "Pulses which share their control Hamiltonians and are simulated with noise traces (SchroedingerSMonteCarlo) may be optimized one by one: if they are played one after the other, with the product of their targets as target and the noise traces put one after the other, the square root of the value of OperationNoiseInfidelity.costs() is at most the sum of the square roots of their own values, whatever the noise in the different pulses has to do with each other. A pulse which meets the same noise in each of r repetitions has at most r^2 times its noise infidelity, and this factor cannot be improved. A pulse that suffers from noise is not hidden by a neighbour which suffers less (the difference of the square roots is a lower bound), but pulses which suffer alike may cancel the noise of each other exactly. With neglect_systematic_errors, on the whole space, the same bound holds whatever the targets.", "quantifier": "every number and length of pulses, every dimension, Hermitian Hamiltonians and noise operators, number of traces, noise samples, unitary targets; with or without a computational subspace (without map_to_closest_unitary on a subspace); exponential_method 'Frechet' (the default) or 'spectral' with is_skew_hermitian, and solver options for which the results do not depend on the order of the reads (as for the defaults); the identity (the default) as initial operator; several processes only without calculate_propagator_derivatives", "why_tests_cant": "a statement about all sequences, whose Monte Carlo simulation grows with the length, and about all correlations of the noise", "anchors": ["qopt/cost_functions.py:OperationNoiseInfidelity.costs", "qopt/cost_functions.py:entanglement_fidelity", "qopt/solver_algorithms.py:SchroedingerSMonteCarlo._compute_dyn_gen_noise", "qopt/solver_algorithms.py:SchroedingerSMonteCarlo._compute_forward_propagation", "qopt/solver_algorithms.py:SchroedingerSolver._compute_dyn_gen"]}
{"id": "C155", "title": "Leakage of sequences of gates", "statement": "Pulses which share their control Hamiltonians and are played one after the other: the square root of LeakageError.costs() of the sequence is at most the sum of the square roots of the leakages of the pulses, so a pulse repeated r times leaks at most r^2 times as much, and this factor cannot be improved. The difference of the square roots of two leakages is a lower bound for the leakage of the two pulses together; pulses which leak alike may undo each other's leakage completely. The same upper bound holds for IncoherentLeakageError with a Monte Carlo solver, whatever the noise in the different pulses has to do with each other.", "quantifier": "every number and length of pulses, every dimension and list of distinct computational states, Hermitian Hamiltonians and noise operators, noise samples and numbers of traces; exponential_method 'Frechet' (the default) or 'spectral' with is_skew_hermitian, and solver options for which the results do not depend on the order of the reads (as for the defaults); the identity (the default) as initial operator; several processes only without calculate_propagator_derivatives", "why_tests_cant": "a statement about all sequences and all pulses; whether leakage adds up or returns depends on the phases", "anchors": ["qopt/cost_functions.py:LeakageError.costs", "qopt/cost_functions.py:IncoherentLeakageError.costs", "qopt/matrix.py:DenseOperator.truncate_to_subspace", "qopt/solver_algorithms.py:Solver._compute_forward_propagation"]}
{"id": "C156", "title": "State preparation: sequences, gates on prepared states, and what no pulse can prepare", "statement": "Pulses with StateInfidelity and kets as targets, closed system with Hermitian Hamiltonians, normalised states. Played one after the other, the square root of the infidelity of the last goal is at most the sum of the square roots of the infidelities of the pulses, each one started from the goal of the one before; it is at least the difference of the two for two pulses. r pulses with the same error may have almost r^2 times the infidelity, and errors of two pulses may cancel. If a gate with OperationInfidelity c2 in dimension d follows a preparation with infidelity c1, the infidelity of the ideal result is at most (sqrt(c1) + sqrt(d c2))^2. No pulse does better than sqrt(infidelity) >= sqrt(infidelity of the initial state) - sum_t |tau_t| ||H_t - e_t|| for every choice of energies e_t. If an observable Q commutes with the drift and control Hamiltonians, its means in the initial state and in the goal differ by at most 2 ||Q|| sqrt(infidelity), with equality for some systems.", "quantifier": "every dimension, subspace of distinct computational states, normalised initial states and goals, Hermitian drifts and controls, step durations, amplitudes, numbers of pulses, unitary gates and observables; rescale_propagated_state set or not (without map_to_closest_unitary on a subspace); exponential_method 'Frechet' (the default) or 'spectral' with is_skew_hermitian, and solver options for which the results do not depend on the order of the reads (as for the defaults)", "why_tests_cant": "bounds for all pulses and states; that a goal cannot be reached is a statement about every pulse, and the errors of a sequence depend on phases", "anchors": ["qopt/cost_functions.py:StateInfidelity.costs", "qopt/cost_functions.py:state_fidelity", "qopt/cost_functions.py:OperationInfidelity.costs", "qopt/solver_algorithms.py:Solver._compute_forward_propagation", "qopt/solver_algorithms.py:SchroedingerSolver._compute_propagation"]}
{"id": "C157", "title": "How much noise matters: gates, leakage and states", "statement": "Schroedinger Monte Carlo solver, Hermitian Hamiltonians and noise operators. The strength of a noise trace is the sum over the time steps and noise operators of |duration| |sample| ||operator||. The square roots of OperationNoiseInfidelity and OperationInfidelity, of IncoherentLeakageError and LeakageError, and of StateNoiseInfidelity and StateInfidelity (systematic errors not neglected) differ at most by the root mean square of the strengths of the traces. With systematic errors neglected StateNoiseInfidelity on the whole space is at most their mean square. None of these bounds can be improved by a factor. For pulses which prepare states one after the other, each with its own part of the noise, the square roots of the noise infidelities add up at most, and their difference is a lower bound; a noisy gate on a prepared state adds at most the root of d times its noise infidelity.", "quantifier": "every dimension, subspace of distinct computational states, Hermitian drifts, controls and noise operators, step durations, amplitudes, noise samples, positive numbers of traces, normalised states and unitary targets; map_to_closest_unitary only without computational states; exponential_method 'Frechet' (the default) or 'spectral' with is_skew_hermitian, and solver options for which the results do not depend on the order of the reads (as for the defaults); the identity (the default) as initial operator; several processes only without calculate_propagator_derivatives", "why_tests_cant": "bounds for all noise traces, whose size and direction no finite sample covers", "anchors": ["qopt/cost_functions.py:OperationNoiseInfidelity.costs", "qopt/cost_functions.py:IncoherentLeakageError.costs", "qopt/cost_functions.py:StateNoiseInfidelity.costs", "qopt/cost_functions.py:OperationInfidelity.costs", "qopt/cost_functions.py:LeakageError.costs", "qopt/cost_functions.py:StateInfidelity.costs", "qopt/solver_algorithms.py:SchroedingerSMonteCarlo._compute_dyn_gen_noise"]}
{"id": "C158", "title": "Pulses played backwards perform the transposed operation", "statement": "A `SchroedingerSolver` with the transposed drift and control Hamiltonians whose time steps, drift Hamiltonians and amplitudes are those of another solver in opposite order (time reversal) has as `forward_propagators` the transposes of the `reversed_propagators` of the other one; its final propagator is the transpose of the final propagator. `OperationInfidelity` with respect to the transposed target, also on computational states, has the same `costs()`, and its `grad()` is that of the other one with the time steps in opposite order. `LeakageError.costs()` is the same, and so is `StateInfidelity.costs()` of taking the conjugate of the target state to the conjugate of the initial state; their gradients are those of the other one in opposite order as well. If all Hamiltonians are symmetric matrices (real, if they are Hermitian), this is the same system driven with the pulse played backwards: for symmetric targets it has the same infidelity and the gradient in opposite order, and a pulse which reads the same in both directions performs a symmetric operation.", "quantifier": "for all dimensions, drift and control Hamiltonians (one drift per time step), real durations of any sign, amplitudes, targets and computational states; exponential methods `Frechet` with an exact `expm`, or `spectral` with Hermitian Hamiltonians and an exact `eigh`; initial propagator the identity (states: any ket); `map_to_closest_unitary` off or no computational states; gradients: method `Frechet` with exact Frechet derivatives, `frechet_deriv_approx_method=None`, computational states not empty; states: the whole space as target space", "why_tests_cant": "The claim relates two runs for every pulse and system; tests could compare single examples in floating point only.", "anchors": ["qopt/solver_algorithms.py:SchroedingerSolver", "qopt/solver_algorithms.py:Solver.reversed_propagators", "qopt/cost_functions.py:OperationInfidelity.costs", "qopt/cost_functions.py:OperationInfidelity.grad", "qopt/cost_functions.py:LeakageError.costs", "qopt/cost_functions.py:StateInfidelity.costs", "qopt/cost_functions.py:StateInfidelity.grad", "qopt/cost_functions.py:LeakageError.grad"]}
{"id": "C159", "title": "The noise costs of states and of leakage are unbiased estimates of the average over the noise", "statement": "`StateNoiseInfidelity.costs()` and `IncoherentLeakageError.costs()` on a Monte Carlo solver whose K noise traces are independent and identically distributed return random numbers. Their means are the state infidelity (with respect to the target, or to the state reached without noise if systematic errors are neglected) and the leakage, averaged over the distribution of one trace; their variances are those of a single trace divided by K and at most 1/(4K); an error of at least eps has probability at most 2*exp(-2*K*eps^2). `LeakageLiouville` with `monte_carlo=True` returns the same number as `IncoherentLeakageError`. With NTGQuasiStatic in Monte Carlo mode the average is over a static noise Hamiltonian with independent, normally distributed strengths.", "quantifier": "all Hermitian systems, pulses, distinct computational states (leakage: at least one), normalised initial states and target states, unitary initial propagators, trace counts, serial or parallel evaluation, and distributions of a noise trace; exponential_method 'Frechet' (the default) and solver options for which the results do not depend on the order of the reads (as for the defaults)", "why_tests_cant": "the result is random; a test sees single draws and cannot tell a biased average from an unlucky one", "anchors": ["qopt/cost_functions.py:StateNoiseInfidelity.costs", "qopt/cost_functions.py:IncoherentLeakageError.costs", "qopt/cost_functions.py:LeakageLiouville.costs", "qopt/noise.py:NTGQuasiStatic._sample_noise", "qopt/solver_algorithms.py:SchroedingerSMonteCarlo._compute_propagation"]}
{"id": "C160", "title": "Conserved quantities: what a pulse cannot change, and why the optimizer does not notice", "statement": "Let Q be an operator which commutes with the drift and control Hamiltonians. Then every entry of `forward_propagators` commutes with Q (solver started with the identity); a state that starts as an eigenstate of Q remains one with the same eigenvalue; for Hermitian Hamiltonians the expectation value of Q is constant for every initial state. If Q is unitary and the target operation T (extended by zero from the computational states) satisfies TQ = w QT with w other than 1, `OperationInfidelity.costs()` returns exactly 1 for every pulse and `grad()` returns zeros: the optimizer stands still on a plateau. The same holds for `StateInfidelity` if the initial state and the target are eigenstates of Q with different eigenvalues. Noise traces whose noise operators commute with Q do not change this: `OperationNoiseInfidelity` and `StateNoiseInfidelity` return 1. For the Lindblad solver, tr(Q rho) is constant for every initial rho if Q commutes with the Hamiltonians, the Lindblad operators and their adjoints, whatever the rates.", "quantifier": "all system sizes, Hamiltonians, operators Q, time steps and amplitudes; the propagators with the methods which compute the matrix exponential ('Frechet' or, for Hermitian Hamiltonians, spectral); gradients with exact derivatives of the propagators ('Frechet', no approximation); computational states not an empty list, truncated operations not mapped to the closest unitary; noise: at least one trace, Hermitian Hamiltonians, no noise amplitude function; Lindblad solver started with the identity, 'Frechet', Hermitian Hamiltonians; solver options for which results do not depend on the order of the reads (as for the defaults)", "why_tests_cant": "the claim is for all pulses at once; a test sees single pulses, and with rounding errors small gradients instead of zeros", "anchors": ["qopt/solver_algorithms.py:Solver.forward_propagators", "qopt/solver_algorithms.py:SchroedingerSolver._compute_propagation", "qopt/cost_functions.py:OperationInfidelity.costs", "qopt/cost_functions.py:OperationInfidelity.grad", "qopt/cost_functions.py:StateInfidelity.costs", "qopt/cost_functions.py:StateInfidelity.grad", "qopt/cost_functions.py:OperationNoiseInfidelity.costs", "qopt/cost_functions.py:StateNoiseInfidelity.costs", "qopt/solver_algorithms.py:LindbladSolver._calc_diss_sup_op"]}
{"id": "C161", "title": "Equivalent descriptions of the noise", "statement": "`SchroedingerSMonteCarlo` without noise amplitude function. (a) Only the sum over the noise operators of sample times operator matters: solvers with the same sums for all traces and time steps return the same propagators, derivatives, costs and gradients. In particular a factor may be moved from a noise operator into its samples, the operators may be given in another order together with their samples, and perfectly correlated sources may be merged into one operator. (b) The order of the traces does not matter for `OperationNoiseInfidelity`, its gradient, `StateNoiseInfidelity` and `IncoherentLeakageError`; the value (and the gradient) of two batches of traces together is the mean of those of the batches, weighted with the numbers of traces. (c) Other units of energy and time, another orthonormal basis and another zero of energy do not change noise infidelities of gates and states and the gradient; the zero of energy of the noise may differ from trace to trace and time step to time step. Without change of the basis this holds on every set of computational states and for the leakage.", "quantifier": "all system sizes, Hamiltonians, noise operators, samples, numbers of traces and amplitudes; (a) for every method and approximation of the derivatives; (b), (c) method 'Frechet', Hermitian Hamiltonians and noise operators, at least one time step, serial or parallel; gradients in one process with exact derivatives, at least one trace and amplitudes that are the amplitudes of some parameters; truncated operations not mapped to the closest unitary in (c); solver options for which results do not depend on the order of the reads", "why_tests_cant": "relations between runs of differently configured solvers for all inputs; single runs agree within rounding errors only", "anchors": ["qopt/solver_algorithms.py:SchroedingerSMonteCarlo._compute_dyn_gen_noise", "qopt/solver_algorithms.py:SchroedingerSMonteCarlo._compute_propagation", "qopt/solver_algorithms.py:SchroedingerSMonteCarlo._compute_forward_propagation", "qopt/cost_functions.py:OperationNoiseInfidelity.costs", "qopt/cost_functions.py:OperationNoiseInfidelity.grad", "qopt/cost_functions.py:StateNoiseInfidelity.costs", "qopt/cost_functions.py:IncoherentLeakageError.costs"]}
{"id": "C162", "title": "Noisy pulses played backwards", "statement": "`SchroedingerSMonteCarlo` without noise amplitude function, and a second one whose Hamiltonians and noise operators are the transposed matrices and whose durations, drift Hamiltonians and noise samples are given in opposite order. For the pulse played backwards the second solver returns the noise infidelity of the first: `OperationNoiseInfidelity` with the transposed target or with neglected systematic errors and `IncoherentLeakageError` for gates started from the identity, `StateNoiseInfidelity` with the conjugates of initial and target state exchanged. The gradient of `OperationNoiseInfidelity` is the one of the first solver in opposite order. If the noise is constant in each trace, all Hamiltonians and noise operators are symmetric (for Hermitian ones: real) and durations and drifts read the same in both directions, one and the same solver assigns the same noise infidelity (with the transposed target), leakage and gradient in opposite order to a pulse and the pulse played backwards.", "quantifier": "all system sizes, Hamiltonians, noise operators, samples, numbers of traces, targets and amplitudes; method 'Frechet', Hermitian Hamiltonians and noise operators, at least one time step, serial or parallel; all sets of computational states, but truncated operations not mapped to the closest unitary; for states no truncation; gradients in one process with exact derivatives, at least one trace and amplitudes that are the amplitudes of some parameters; transfer functions for which the transferred durations of the reversed time steps are the reversed durations; solver options for which results do not depend on the order of the reads", "why_tests_cant": "a relation between runs of two solvers for all inputs; a mistake in the order of the samples over time is visible only for noise that varies in time, and a test with static noise misses it", "anchors": ["qopt/solver_algorithms.py:SchroedingerSMonteCarlo._compute_dyn_gen_noise", "qopt/solver_algorithms.py:SchroedingerSMonteCarlo._compute_forward_propagation", "qopt/solver_algorithms.py:SchroedingerSMonteCarlo._compute_reversed_propagation", "qopt/cost_functions.py:OperationNoiseInfidelity.costs", "qopt/cost_functions.py:OperationNoiseInfidelity.grad", "qopt/cost_functions.py:StateNoiseInfidelity.costs", "qopt/cost_functions.py:IncoherentLeakageError.costs"]}
{"id": "C163", "title": "Levels left out of a simulation with noise", "statement": "If neither the Hamiltonians nor the noise operators of a `SchroedingerSMonteCarlo` (without noise amplitude function) have matrix elements from the computational states to other levels, the noise costs can be computed without the other levels: `OperationNoiseInfidelity` and its gradient and `StateNoiseInfidelity`, evaluated with `computational_states` on the large system, have the values of the solver whose Hamiltonians, noise operators and initial operator or state are restricted to these states with `truncate_to_subspace`, for the same noise samples, with and without neglected systematic errors. `IncoherentLeakageError` is zero.", "quantifier": "all system sizes, subspaces in any order without repetition, Hamiltonians, noise operators, samples, numbers of traces (for leakage at least one), targets and amplitudes; method 'Frechet', Hermitian Hamiltonians and noise operators, at least one time step, serial or parallel, transfer functions with the same transferred durations; initial operators that do not lead out of the subspace (leakage: unitary, at least one state); on the large system no map to the closest unitary; gradients in one process with exact derivatives, at least one state and one trace and amplitudes that are the amplitudes of some parameters; solver options for which results do not depend on the order of the reads", "why_tests_cant": "a relation between simulations of different dimension for all systems and noise", "anchors": ["qopt/matrix.py:DenseOperator.truncate_to_subspace", "qopt/solver_algorithms.py:SchroedingerSMonteCarlo._compute_dyn_gen_noise", "qopt/solver_algorithms.py:SchroedingerSMonteCarlo._compute_forward_propagation", "qopt/cost_functions.py:OperationNoiseInfidelity.costs", "qopt/cost_functions.py:OperationNoiseInfidelity.grad", "qopt/cost_functions.py:StateNoiseInfidelity.costs", "qopt/cost_functions.py:IncoherentLeakageError.costs"]}
{"id": "C164", "title": "Noise of subsystems that do not interact", "statement": "Two subsystems without interaction, each with its own noise operators and samples, are simulated together with `SchroedingerSMonteCarlo`, with Hamiltonians, noise operators and target combined with `kron` and the same samples. The `OperationNoiseInfidelity` of the pair is at least that of each of the subsystems alone and at most their sum, with and without neglected systematic errors. If the samples of one of the subsystems vanish, the fidelities multiply, 1 - c = (1 - c₁)(1 - c₂), and the gradient of the pair consists of the gradients of the subsystems multiplied by the fidelity of the other one; with neglected systematic errors the noise infidelity of the pair is exactly that of the noisy subsystem.", "quantifier": "all sizes of the subsystems, Hamiltonians, noise operators, samples, numbers of traces (positive where one of the subsystems has no noise), targets and amplitudes, no computational states, no noise amplitude function; method 'Frechet', Hermitian Hamiltonians and noise operators, at least one time step, serial or parallel, transfer functions with the same transferred durations; unitary initial operators and targets (targets arbitrary with neglected systematic errors) and non-empty systems for the bounds; gradients in one process with exact derivatives and amplitudes that are the amplitudes of some parameters; solver options for which results do not depend on the order of the reads", "why_tests_cant": "a relation between simulations of different dimension for all systems and noise", "anchors": ["qopt/matrix.py:DenseOperator.kron", "qopt/solver_algorithms.py:SchroedingerSMonteCarlo._compute_dyn_gen_noise", "qopt/solver_algorithms.py:SchroedingerSMonteCarlo._compute_forward_propagation", "qopt/cost_functions.py:OperationNoiseInfidelity.costs", "qopt/cost_functions.py:OperationNoiseInfidelity.grad"]}
{"id": "C165", "title": "Inexact models of systems with noise", "statement": "Two `SchroedingerSMonteCarlo` solvers describe the same experiment with different Hamiltonians, amplitudes, noise operators or noise samples (for example noise taken to be constant during the pulse, a noise source left out, or amplitudes rounded). In each trace, let d be the sum over the time steps of duration times operator norm of the difference of the total Hamiltonians. The square roots of the two `OperationNoiseInfidelity`s differ by at most the root mean square of d over the traces; so do those of `StateNoiseInfidelity` and of `IncoherentLeakageError`. With neglected systematic errors the distance of the Hamiltonians without noise is added to d.", "quantifier": "all system sizes, Hamiltonians, amplitudes, noise operators (also of different number), samples, numbers of traces, computational states without repetition (none with neglected systematic errors), unitary targets and initial operators, normalized target and initial states, no noise amplitude function; method 'Frechet', Hermitian Hamiltonians and noise operators, at least one time step, serial or parallel, transfer functions with the same transferred durations; no map to the closest unitary on a subspace, at least one computational state; solver options for which results do not depend on the order of the reads", "why_tests_cant": "an error bound for all systems, pulses and noise; tests compare single pairs of models", "anchors": ["qopt/solver_algorithms.py:SchroedingerSMonteCarlo._compute_dyn_gen_noise", "qopt/solver_algorithms.py:SchroedingerSMonteCarlo._compute_forward_propagation", "qopt/cost_functions.py:OperationNoiseInfidelity.costs", "qopt/cost_functions.py:StateNoiseInfidelity.costs", "qopt/cost_functions.py:IncoherentLeakageError.costs"]}
{"id": "C166", "title": "Noise which no pulse can reduce", "statement": "The noise operators of a `SchroedingerSMonteCarlo` solver commute with all drift and control Hamiltonians. Then `OperationNoiseInfidelity` with neglected systematic errors returns the same value for every pulse, namely the mean over the traces of 1 - |tr W|^2/d^2, where W is the evolution under the noise alone; `grad` returns zero in every entry. If the noise operators also commute with each other, W depends only on the accumulated noise: W = exp(-i sum_j (sum_t dt_t noise_j(t)) N_j).", "quantifier": "all system sizes, Hamiltonians, pulses, noise operators, samples, numbers of traces and targets, unitary initial operators, no computational states, with or without map to the closest unitary, no noise amplitude function; method 'Frechet', Hermitian Hamiltonians and noise operators, serial or parallel (gradient: serial, at least one trace, every transferred amplitude reachable), at least one time step; solver options for which results do not depend on the order of the reads", "why_tests_cant": "a statement about all pulses: an optimizer that makes no progress looks like a failure of the optimizer, tests of single pulses cannot tell", "anchors": ["qopt/solver_algorithms.py:SchroedingerSMonteCarlo._compute_dyn_gen_noise", "qopt/solver_algorithms.py:SchroedingerSMonteCarlo._compute_forward_propagation", "qopt/cost_functions.py:OperationNoiseInfidelity.costs", "qopt/cost_functions.py:OperationNoiseInfidelity.grad"]}
{"id": "C167", "title": "The spectral method in open systems", "statement": "The states computed by a `LindbladSolver` with `exponential_method='spectral'` are, at all times of the grid, those of the solutions of the Lindblad master equation, as with the default method (C138).", "quantifier": "all system sizes, Hermitian Hamiltonians, amplitudes, Lindblad operators, rates and non-negative durations, generators with a basis of eigenvectors, all results of `eig` with normalised eigenvectors", "why_tests_cant": "the solver raises no exception; tests of dephasing or of closed systems, where the generator is normal, show no error", "anchors": ["qopt/matrix.py:DenseOperator._exp_diagonalize", "qopt/solver_algorithms.py:LindbladSolver._compute_dyn_gen", "qopt/solver_algorithms.py:SchroedingerSolver._compute_propagation"]}
{"id": "C168", "title": "Gradients with the spectral method", "statement": "With `exponential_method='spectral'` and `is_skew_hermitian=True`, every entry of `OperationInfidelity.grad` of a `SchroedingerSolver` is the derivative of `OperationInfidelity.costs` by that amplitude, as with the default method (C44).", "quantifier": "all system sizes, Hermitian drift and control operators, targets, computational states, durations and amplitudes for which no Hamiltonian has a repeated eigenvalue, all results of `eigh`", "why_tests_cant": "the gradient has the right shape and, for qubits with real symmetric eigenvector matrices, the right values; an optimiser still makes progress with a wrong gradient", "anchors": ["qopt/matrix.py:DenseOperator._dexp_diagonalization", "qopt/cost_functions.py:OperationInfidelity.grad", "qopt/solver_algorithms.py:SchroedingerSolver._compute_derivative_directions"]}
{"id": "C169", "title": "The time grid of simulations with noise", "statement": "Two `SchroedingerSMonteCarlo` solvers without noise amplitude function simulate the same system; the second one divides every time step into several, whose durations add up to that of the step, with the same drift, the same amplitudes and the noise samples of the step repeated. `OperationNoiseInfidelity`, `IncoherentLeakageError` and `StateNoiseInfidelity` return the same costs for both. The gradient of `OperationNoiseInfidelity` by an amplitude of the coarse grid is the sum of the gradients by its repetitions on the fine grid.", "quantifier": "all system sizes, initial and target states and gates, computational states, Hermitian drift, control and noise operators, durations of steps and parts, numbers of parts, noise samples, numbers of traces, transfer and amplitude functions and pulses", "why_tests_cant": "a numerical comparison covers single pulses and noise samples; if the noise were added per number of steps rather than per time the costs would depend on the grid only slightly", "anchors": ["qopt/solver_algorithms.py:SchroedingerSMonteCarlo._compute_dyn_gen_noise", "qopt/cost_functions.py:OperationNoiseInfidelity.costs", "qopt/cost_functions.py:OperationNoiseInfidelity.grad", "qopt/cost_functions.py:IncoherentLeakageError.costs", "qopt/cost_functions.py:StateNoiseInfidelity.costs", "qopt/transfer_function.py:OversamplingTF"]}
{"id": "C170", "title": "The time grid of open systems and the gradient", "statement": "Two `LindbladSolver`s describe the same open system; the second one divides every time step into several, whose durations add up to that of the step, with the same drift, amplitudes and dissipation. `OperationInfidelity` with super operators returns the same cost for both, and its gradient by an amplitude of the coarse grid is the sum of the gradients by its repetitions on the fine grid.", "quantifier": "all system sizes, initial super operators, targets, computational states, drift and Hermitian control operators, durations of steps and parts, numbers of parts, amplitudes, and dissipation given by constant super operators, Lindblad operators, factors depending on the amplitudes, or a super operator function", "why_tests_cant": "the gradient consists of the Frechet derivatives of all parts, each with dissipation that depends on the amplitude; equality of the sum is a statement about all pulses", "anchors": ["qopt/solver_algorithms.py:LindbladSolver._compute_derivative_directions", "qopt/solver_algorithms.py:LindbladSolver", "qopt/cost_functions.py:OperationInfidelity.costs", "qopt/cost_functions.py:OperationInfidelity.grad"]}
{"id": "C171", "title": "Noise amplitude functions", "statement": "`SchroedingerSMonteCarlo` calls its `noise_amplitude_function` with the noise samples (time step first, then trace, then noise operator), the optimisation parameters, the transferred parameters and the control amplitudes. Trace k has at step t the propagator of the noiseless Hamiltonian plus the sum over the noise operators of entry [t][k][j] of the result times operator j. All propagators, derivatives, noise infidelities, their gradients and leakage costs are those of a solver without noise amplitude function whose noise samples are the result. An exception of the function reaches the caller.", "quantifier": "all noise amplitude functions, system sizes, noise operators, samples, numbers of traces, pulses; the result may have any shape for which the solver without function succeeds or fails alike", "why_tests_cant": "tests use one function of one of the four arguments; exchanged arguments or axes of equal length go unnoticed", "anchors": ["qopt/solver_algorithms.py:SchroedingerSMonteCarlo._compute_dyn_gen_noise", "qopt/solver_algorithms.py:SchroedingerSMonteCarlo._compute_propagation", "qopt/cost_functions.py:OperationNoiseInfidelity.costs", "qopt/cost_functions.py:StateNoiseInfidelity.costs"]}
{"id": "C172", "title": "Affine amplitude functions in simulations with noise", "statement": "Without noise amplitude function: if the control amplitudes of every time step are affine functions of the parameters of that step, u = A^T v + b, then a `SchroedingerSMonteCarlo` solver returns for u the same `OperationNoiseInfidelity.costs`, `StateNoiseInfidelity.costs` and `IncoherentLeakageError.costs` as the solver with the controls H'_k = sum_l A[k][l] H_l and the drift H_0 + sum_l b[l] H_l and the same noise samples returns for v. The entry of `OperationNoiseInfidelity.grad` for step t and parameter k is sum_l A[k][l] times the entry for step t and control l.", "quantifier": "all matrices A, vectors b, numbers of parameters and controls, systems, drifts, noise operators, samples, numbers of traces, pulses, targets and computational states", "why_tests_cant": "tests compare one amplitude function at one pulse without noise", "anchors": ["qopt/solver_algorithms.py:SchroedingerSMonteCarlo._compute_propagation", "qopt/solver_algorithms.py:SchroedingerSMonteCarlo._compute_dyn_gen_noise", "qopt/cost_functions.py:OperationNoiseInfidelity.costs", "qopt/cost_functions.py:OperationNoiseInfidelity.grad", "qopt/cost_functions.py:StateNoiseInfidelity.costs", "qopt/cost_functions.py:IncoherentLeakageError.costs"]}
{"id": "C173", "title": "Affine amplitude functions in open systems", "statement": "If the control amplitudes of every time step are affine functions of the parameters of that step, u = A^T v + b, then a `LindbladSolver` returns for u the same forward propagators and `OperationInfidelity` the same costs as for v with the solver that has the controls H'_k = sum_l A[k][l] H_l, the drift H_0 + sum_l b[l] H_l and, as function of v, the same dissipation. The entry of the gradient for step t and parameter k is sum_l A[k][l] times the entry for step t and control l, also if the rates of the dissipation depend on the amplitudes.", "quantifier": "all matrices A, vectors b, numbers of parameters and controls, systems, drifts, dissipation given in any of the four ways, pulses, targets and computational states", "why_tests_cant": "tests evaluate the open system with one set of controls at one pulse", "anchors": ["qopt/solver_algorithms.py:LindbladSolver._compute_dyn_gen", "qopt/solver_algorithms.py:LindbladSolver._compute_derivative_directions", "qopt/solver_algorithms.py:LindbladSolver._calc_diss_sup_op", "qopt/solver_algorithms.py:LindbladSolver._calc_diss_sup_op_deriv", "qopt/cost_functions.py:OperationInfidelity.costs", "qopt/cost_functions.py:OperationInfidelity.grad"]}
{"id": "C174", "title": "Conjugated systems and inverse pulses", "statement": "A `SchroedingerSolver` with the Hamiltonians -conj(H) for every drift and control and with the conjugated initial operator returns the complex conjugates of all forward propagators. `OperationInfidelity` with respect to the conjugated operation, its gradient, `LeakageError` and `StateInfidelity` with respect to the conjugated state are unchanged. If the Hamiltonians are Hermitian, the solver with the Hamiltonians -H, the time steps, drifts and amplitudes in opposite order has the inverse of the final propagator as final propagator. Its infidelity with respect to the adjoint of the target is the infidelity of the original pulse, and its gradient is the gradient in opposite order.", "quantifier": "all systems, drifts, controls, time steps, pulses, target operations and states and computational states", "why_tests_cant": "tests evaluate one system at one pulse and do not compare a system with its conjugate or its inverse", "anchors": ["qopt/solver_algorithms.py:SchroedingerSolver._compute_dyn_gen", "qopt/solver_algorithms.py:SchroedingerSolver._compute_propagation", "qopt/solver_algorithms.py:Solver._compute_forward_propagation", "qopt/cost_functions.py:OperationInfidelity.costs", "qopt/cost_functions.py:OperationInfidelity.grad", "qopt/cost_functions.py:StateInfidelity.costs", "qopt/cost_functions.py:LeakageError.costs"]}
{"id": "C175", "title": "Conjugated open systems", "statement": "A `LindbladSolver` with the Hamiltonians -conj(H) for every drift and control, with conjugated Lindblad operators (or conjugated dissipation super operators, constant or as function of the amplitudes) and with the conjugated initial operator returns the complex conjugates of all forward propagators. `OperationInfidelity` with respect to the conjugated operation and its gradient are unchanged.", "quantifier": "all systems, drifts, controls, dissipation given in any of the four ways, pulses, target operations and computational states", "why_tests_cant": "tests evaluate one open system at one pulse and do not compare it with its conjugate", "anchors": ["qopt/solver_algorithms.py:LindbladSolver._compute_dyn_gen", "qopt/solver_algorithms.py:LindbladSolver._compute_derivative_directions", "qopt/solver_algorithms.py:LindbladSolver._calc_diss_sup_op", "qopt/solver_algorithms.py:LindbladSolver._calc_diss_sup_op_deriv", "qopt/cost_functions.py:OperationInfidelity.costs", "qopt/cost_functions.py:OperationInfidelity.grad"]}
{"id": "C176", "title": "Conjugated systems with noise", "statement": "A Monte Carlo solver with the Hamiltonians -conj(H) for every drift, control and noise operator, the conjugated initial operator and the same noise traces gives the same `OperationNoiseInfidelity` with respect to the conjugated operation (or, with neglect_systematic_errors, with respect to its own evolution without noise), the same gradient, the same `IncoherentLeakageError` and the same `StateNoiseInfidelity` with respect to the conjugated state as the original solver.", "quantifier": "all systems, noise operators, numbers of traces, noise samples, amplitude functions, pulses, target operations and states and computational states", "why_tests_cant": "tests evaluate one noisy system at one pulse and do not compare it with its conjugate", "anchors": ["qopt/solver_algorithms.py:SchroedingerSMonteCarlo._compute_dyn_gen_noise", "qopt/solver_algorithms.py:SchroedingerSMonteCarlo._compute_propagation", "qopt/cost_functions.py:OperationNoiseInfidelity.costs", "qopt/cost_functions.py:OperationNoiseInfidelity.grad", "qopt/cost_functions.py:StateNoiseInfidelity.costs", "qopt/cost_functions.py:IncoherentLeakageError.costs"]}
{"id": "C177", "title": "Inverse pulses with noise", "statement": "For Hermitian Hamiltonians and the initial operator 1, a Monte Carlo solver with the opposite sign of all drifts, controls and noise operators, in which the drifts, durations, amplitudes and noise samples of every trace are in opposite order, has the same `OperationNoiseInfidelity` with respect to the inverse (conjugate transpose) of the target as the original solver, the gradient in opposite order and the same `IncoherentLeakageError`; and its `StateNoiseInfidelity` of the way from the target state back to the initial state is the one of the way there. Without drift the pulse with the opposite sign in opposite order on the same system has the same infidelity with respect to the inverse of the target and the same leakage, if the noise samples have the opposite sign and order, and every entry of its gradient is minus the entry of the original pulse at the mirrored time.", "quantifier": "all systems, noise operators, numbers of traces, noise samples, amplitude functions, pulses, target operations and states and computational states", "why_tests_cant": "tests evaluate one noisy pulse and do not compare it with its inverse", "anchors": ["qopt/solver_algorithms.py:SchroedingerSMonteCarlo._compute_dyn_gen_noise", "qopt/solver_algorithms.py:SchroedingerSMonteCarlo._compute_propagation", "qopt/cost_functions.py:OperationNoiseInfidelity.costs", "qopt/cost_functions.py:OperationNoiseInfidelity.grad", "qopt/cost_functions.py:StateNoiseInfidelity.costs", "qopt/cost_functions.py:IncoherentLeakageError.costs"]}
{"id": "C178", "title": "Operations out of reach with noise and dissipation", "statement": "Let V be a unitary which commutes with all drift and control Hamiltonians, and let the target operation T (extended by zero from the computational states) satisfy TV = w VT with w other than 1. For a `LindbladSolver` started with the identity, whose Lindblad operators commute with V as well, `OperationInfidelity.costs()` for super operators returns exactly 1 for every pulse and `grad()` returns zeros, whatever the rates and their dependence on the pulse. For a `SchroedingerSMonteCarlo` solver whose noise operators commute with V, `OperationNoiseInfidelity.costs()` returns 1 and `grad()` returns zeros, for all noise traces. Dissipation and noise of this kind do not help an optimizer off the plateau.", "quantifier": "all systems, Lindblad operators and rates, noise operators and samples, amplitudes, target operations and computational states", "why_tests_cant": "a statement about all pulses of all systems with a symmetry; a test sees a gradient which is zero up to rounding errors at one pulse", "anchors": ["qopt/solver_algorithms.py:LindbladSolver._compute_dyn_gen", "qopt/solver_algorithms.py:SchroedingerSMonteCarlo._compute_propagation", "qopt/cost_functions.py:OperationInfidelity.costs", "qopt/cost_functions.py:OperationInfidelity.grad", "qopt/cost_functions.py:OperationNoiseInfidelity.costs", "qopt/cost_functions.py:OperationNoiseInfidelity.grad"]}
{"id": "C179", "title": "Leakage of open systems for every initial state and for sequences of pulses", "statement": "Let `LeakageLiouville.costs()` (input_unitary=False) return c for a `LindbladSolver` with Hermitian Hamiltonians and rates which are not negative, started with the identity, and d computational states. For every density matrix on the computational subspace, the population found outside of it after the pulse is at most d c, although c refers to the fully mixed state only; the factor d is needed. For pulses played one after the other, the square root of the leakage of the sequence is at most the square root of the leakage of the first pulse plus the sum of sqrt(d c_i) over the following ones, also if coherences between the subspaces let amplitudes add up.", "quantifier": "all systems, Lindblad operators, rates depending on the amplitudes, pulses, computational states, initial density matrices and numbers of pulses", "why_tests_cant": "a bound over all states and all sequences of pulses; a test can only sample them, and the cost function evaluates a single state", "anchors": ["qopt/cost_functions.py:LeakageLiouville.costs", "qopt/solver_algorithms.py:LindbladSolver._compute_propagation", "qopt/solver_algorithms.py:LindbladSolver._compute_dyn_gen"]}
{"id": "C180", "title": "Levels left out of the simulation of an open system", "statement": "Truncating all Hamiltonians and Lindblad operators to a list of states with truncate_to_subspace before the `LindbladSolver` is created, instead of passing `computational_states` to `OperationInfidelity`, makes no difference if no Hamiltonian H, no Lindblad operator L and no product L^dagger L has matrix elements from these states to other levels. Lindblad operators which bring population from other levels into the subspace are allowed. Density matrices of the subspace evolve in both simulations to the same density matrices at the end of every time step, the infidelities with respect to every operation and their gradients are equal, also if the rates depend on the amplitudes, and `LeakageLiouville` of the large system returns 0.", "quantifier": "all systems, numbers of levels, Lindblad operators, rates depending on the amplitudes, pulses, target operations and density matrices", "why_tests_cant": "compares two simulations of different dimension for all pulses and systems of this kind", "anchors": ["qopt/matrix.py:DenseOperator.truncate_to_subspace", "qopt/solver_algorithms.py:LindbladSolver._compute_dyn_gen", "qopt/solver_algorithms.py:LindbladSolver._compute_propagation", "qopt/cost_functions.py:OperationInfidelity.costs", "qopt/cost_functions.py:LeakageLiouville.costs"]}
{"id": "C181", "title": "What dissipation has destroyed no pulse brings back", "statement": "For a `LindbladSolver` with Hermitian Hamiltonians, any Lindblad operators and rates which are not negative, started with the identity: if after some pulse no yes-or-no measurement distinguishes two initial states by more than delta (difference of the probabilities), then none does after any further pulse. Hence if the further pulse is meant to turn the two states into two orthogonal states, its two error probabilities add up to at least 1 - delta, whatever its amplitudes are. In particular the distinguishability of two states never exceeds its initial value.", "quantifier": "all systems, Lindblad operators, rates depending on the amplitudes, pairs of density matrices, pulses, continuations and measurements", "why_tests_cant": "a statement about all measurements and all continuations of a pulse; a test can only sample them", "anchors": ["qopt/solver_algorithms.py:LindbladSolver._compute_propagation", "qopt/solver_algorithms.py:LindbladSolver._compute_dyn_gen", "qopt/solver_algorithms.py:LindbladSolver._calc_diss_sup_op"]}
