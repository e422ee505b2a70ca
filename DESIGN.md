# Formal model of qopt in Lean 4

## What is modelled

The Python package `qopt` (source in /repo/qopt) is a quantum optimal control library. The model
mirrors the functions listed in `properties.jsonl` branch by branch. Every Lean definition cites the
file and lines it was read from. Nothing is executed: the tie between model and code is the citation.

| module group | code |
|---|---|
| `Verif/Transfer` | `transfer_function.py`: base class, IdentityTF, OversamplingTF, MatrixTF and its subclasses (OversamplingMTF, ExponentialMTF, ConcatenateMTF, ParallelMTF, CustomMTF), ConvolutionTF, GaussianTF, ConcatenateTF, ParallelTF, all with their caches |
| `Verif/Operator` | `matrix.py`: DenseOperator arithmetic on a heap of buffers, vectorisation, Kronecker super operators, ptrace, truncate_to_subspace, closest_unitary, exp/dexp with all methods |
| `Verif/Solver` | `solver_algorithms.py`: Solver and SchroedingerSolver with caches and histories, SchroedingerSMonteCarlo, SchroedingerSMCControlNoise, LindbladSolver (as functions of the pulse and as an object with caches), the pulse sequence for the filter functions |
| `Verif/Cost` | `cost_functions.py`: entanglement/state/average gate fidelities, OperationInfidelity, OperationNoiseInfidelity, Liouville Monte Carlo, leakage measures, state infidelities, partial-trace state infidelity, angle-axis, the exported fidelity derivatives, OperatorMatrixNorm costs |
| `Verif/Sim` | `simulator.py` and `amplitude_functions.py` |
| `Verif/Optim` | `optimize.py`: Optimizer base, wrappers, records, termination conditions, scalar and least square run loops, annealing moves |
| `Verif/Data` | `data_container.py`, `optimization_data.py`, `analyser.py`, `parallel.py`, `performance_statistics.py`, `energy_spectrum.py`, `plotting.py` |
| `Verif/Noise` | `noise.py`: quasi-static and coloured generators, redraw logic, second moments of coloured noise, periodogram |

Not modelled: the drawing of figures (what `plotting.py`, `energy_spectrum.py` and `plot_periodogram` compute before drawing is
modelled for C107-C109), printing, pickling to files, the package `filter_functions` (only the arguments it receives),
`LindbladSControlNoise` (its `_compute_propagation` calls `np.array(shape=...)`, a TypeError, so it never returns a propagator), qutip conversions, `scipy.optimize` internals (the loop of `simanneal` is modelled for C101 from its
published source), the sparse operator stub.

## Trusted base

* Lean 4.33.0's kernel and the axioms `propext`, `Classical.choice`, `Quot.sound`. Every theorem of the manifest depends
  on a subset of these (no own axioms, no `sorry`, no `native_decide`, no `bv_decide`).
* Mathlib's definitions (matrices, Kronecker product, exponential, derivatives, integrals).
* The reading of the Python code by which the definitions were written (the citations).

## Global simplifications

* Floating point numbers are exact real or complex numbers (or elements of an arbitrary field).
  Rounding, overflow, NaN and `isclose` tolerances are not modelled, unless a comment says so.
* numpy arrays are lists of rows, finite functions, row-major buffers or Mathlib matrices. Broadcasting is modelled
  only where the code relies on it. Exceptions are values of `Except PyErr`; the text of messages is not modelled.
* LAPACK/scipy routines (`eig`, `eigh`, `svd`, `expm`, `expm_frechet`, FFT, `erfinv`) are parameters
  or explicit formulas; what is assumed of them is a hypothesis visible in the theorem, and beside the theorems there
  is an instance meeting the hypothesis.
* Python object identity matters in C25, C42, C60-C62, C66, C74, C81, C85; there arrays, lists and dictionaries live in an explicit heap.

## Reading the names

Theorems are called `cNN_...` after the property they belong to. `..._partial` is a theorem that proves part of the
property because the code does not satisfy all of it (or the model does not cover all of it). `cNN_violated...` proves that the
code does not satisfy the property, by a concrete witness or, where possible, for every input of a class.
Beside each theorem stands an `example` meeting its hypotheses.
`seeded/LOG.jsonl` records the wrong programs against which the theorems were tested.

## Per property: what is modelled, how proved, result

* **C01 Time grid has the promised number of samples** — Transfer/Model: set_times/num_padding_elements as functions on lists returning Except; theorem by cases on bound type.
  Modules: Transfer/TimesThms. Status: proved. Grid length, success condition and unsupported bound types of set_times, all inputs.
* **C02 Oversampling preserves durations** — Same model over an arbitrary field of characteristic 0; sums of repeated/replicated lists.
  Modules: Transfer/TimesThms. Status: proved. Block sums and total durations over any field of characteristic 0 with positive oversampling.
* **C03 Absolute times round-trip** — set_absolute_times as sortedness guard + diff; round trip with prefix sums.
  Modules: Transfer/TimesThms. Status: proved. Over any linearly ordered field.
* **C04 OversamplingTF output is the piecewise-constant refinement** — OversamplingTF.__call__ on lists of rows; index theorem via getElem of flatMap/replicate.
  Modules: Transfer/ComposeThms. Status: proved. All pulses, oversamplings, bound types.
* **C05 OversamplingTF gradient is the adjoint of its call** — gradient (crop, reshape, sum) vs call: pairing identity by induction on the pulse.
  Modules: Transfer/ComposeThms. Status: proved. All pulses and gradients; gradient exists for every array with num_x rows.
* **C06 Matrix transfer functions: gradient is the adjoint of the call** — einsum over lists of rows; pairing identity by exchanging sums; affine law.
  Modules: Transfer/ComposeThms. Status: proved. Any tensor of the shape of the grid, any offset and cache state; calls and gradients may be interleaved. A matrix left over from another grid is the subject of C10.
* **C07 OversamplingMTF and OversamplingTF agree** — OversamplingMTF matrix construction vs OversamplingTF.
  Modules: Transfer/ComposeThms. Status: proved. Same result or same error for every pulse and every gradient array.
* **C08 Concatenated transfer functions compose** — Inductive type of transfer-function objects (identity, oversampling, matrix, concatenate, parallel); structural induction.
  Modules: Transfer/ComposeThms. Status: proved. Arbitrarily nested transfer functions whose matrices fit their grids; associativity for parts that leave the constructor unused (fresh caches).
* **C09 Parallel transfer functions act independently** — Same inductive type, parallel node splits Fin (a+b).
  Modules: Transfer/ComposeThms. Status: proved. Arbitrarily nested parts whose matrices fit their grids.
* **C10 A matrix transfer function follows a change of the time grid** — Object state with the cached matrix; negation by witness (code violates), _partial for histories without set_times after first use.
  Modules: Transfer/RetimeThms, Transfer/ExponentialThms. Status: partial. Proved for objects without a matrix cache, for unused matrix objects, and for OversamplingMTF when the step count is unchanged; violated for a used MatrixTF after a grid change (stale matrix: error, silently wrong pulse, or rows added up when the old grid had one step).
* **C11 ConcatenateMTF behaves like applying both parts** — ConcatenateMTF: call always fails (negation); the transfer_matrix property is proved to be the product.
  Modules: Transfer/MtfThms. Status: partial. Violated: _transfer_matrix of a ConcatenateMTF stays None, so every call raises ValueError; the product matrix itself is proved to compose the parts.
* **C12 Offsets survive composition** — Affine composition; ConcatenateTF ok, ConcatenateMTF/ParallelMTF offsets negated by witness.
  Modules: Transfer/MtfThms. Status: partial. Proved for ConcatenateTF and ParallelTF; violated for ParallelMTF (offsets dropped) and ConcatenateMTF (offset of the first part is not transferred).
* **C13 Convolution gradient is the adjoint of the convolution** — Convolution with border index maps; negation by witness; _partial for symmetric kernels in mode 'reflect'.
  Modules: Transfer/ConvolutionModes, Transfer/Convolution. Status: partial. Proved for symmetric kernels with reflect borders (and short kernels with nearest borders), and for the Gaussian filter of even order with reflect, constant and wrap borders; violated for asymmetric kernels, for ConvolutionTF with constant, wrap and mirror borders, for the Gaussian filter with nearest and mirror borders, and for odd orders with every border.
* **C14 Exponential transfer function never overshoots and is causal** — ExponentialMTF matrix over the reals with Real.exp; convexity, monotonicity, causality.
  Modules: Transfer/ExponentialThms. Status: proved. Real scalars; at least two time steps of any widths (the code uses the width of the first).
* **C15 Input validation happens before evaluation** — Decision logic of _check_dimensions_datatype; shape theorem for OversamplingTF/MatrixTF.
  Modules: Transfer/MtfThms, Transfer/ExponentialThms, Transfer/Check, Transfer/ComposeThms. Status: proved. All arrays, all nested objects except a bare IdentityTF, which does not validate.
* **C16 Vectorisation round-trips and is column-wise** — Operator/Vec: flat row-major buffers, transpose+reshape as index arithmetic (finProdFinEquiv).
  Modules: Operator/VecThms. Status: proved. All square arrays and all vectors whose length is a perfect square; other shapes raise.
* **C17 Super-operator of a unitary implements conjugation** — Operator/Superop: Mathlib Matrix/kronecker; entry-wise identity.
  Modules: Operator/VecThms. Status: proved. All square arrays over a commutative ring with conjugation.
* **C18 Partial trace is a partial trace** — Operator/Ptrace: matrices indexed by mixed-radix tuples; partial trace over a set of subsystems; set iteration order is a parameter.
  Modules: Operator/PtraceThms. Status: partial. Proved for removing a proper non-empty set of subsystems from an operator of dimension above one, and for kets. Violated: removing nothing or everything raises TypeError, a 1x1 operator is treated as a ket.
* **C19 Spectral exponential equals the matrix exponential for skew-Hermitian input** — Operator/Exp: eigh contract as hypothesis (unitary V, real eigenvalues, A = V diag V^dag), compare with NormedSpace.exp.
  Modules: Operator/ExpThms. Status: proved. Every skew-Hermitian matrix, every eigen-decomposition allowed by the contract of eigh.
* **C20 Spectral exponential is basis independent for general matrices** — Negation by 2x2 non-normal witness; _partial for unitary eigenvector matrices.
  Modules: Operator/ExpThms. Status: partial. Proved for normal matrices with distinct eigenvalues; violated for every diagonalisable matrix that is not normal (adjoint used in place of the inverse eigenvector matrix).
* **C21 Spectral Frechet derivative is the derivative of the exponential** — Negation by witness; _partial for eigenvector matrices with V = V^dag; the corrected formula is stated for comparison.
  Modules: Operator/DexpThms. Status: partial. Proved when the matrix of eigenvectors is Hermitian; violated in general (basis changes the wrong way round, witness diag(2i,0,i)), and NaN for repeated eigenvalues. The corrected formula is proved.
* **C22 Taylor derivatives are the derivatives of the Taylor exponentials** — Polynomial derivative identity (HasDerivAt in the matrix algebra).
  Modules: Operator/ExpThms. Status: proved. First, second and third order, complex directions parameter.
* **C23 dexp with compute_expm returns the propagator of the same method** — Negation for Taylor methods by witness; _partial for spectral and Frechet.
  Modules: Operator/ExpThms. Status: partial. Proved for spectral and Frechet; violated for approx and the Taylor methods, which return the default spectral exponential.
* **C24 closest_unitary returns a nearest unitary** — svd contract as hypothesis; trace inequality for unitaries (Frobenius norm), singular vector argument (operator norm).
  Modules: Operator/ClosestUnitary. Status: proved. Every square matrix and every singular value decomposition allowed by the contract of svd; smallest distance in the Frobenius norm and in the operator norm.
* **C25 Operator arithmetic does not modify its operands** — Operator/Heap: buffers, views (possibly transposed), objects and names; frame theorems over operation sequences.
  Modules: Operator/HeapThms. Status: proved. Every program of operator operations on a heap of objects and shared buffers, several names of one object included; complex128 arrays, no division by zero.
* **C26 Subspace truncation selects the requested entries** — Branch-by-branch model; negation for rescaled kets/bras; truncation algebra.
  Modules: Operator/Truncate. Status: proved. Also shows which restriction on index lists is needed for truncating vectors twice, and what map_to_closest_unitary does to bras and kets.
* **C27 Forward and reversed propagators fit together** — Solver/Propagation: list recursion in any monoid; split theorem by induction.
  Modules: Solver/PropThms. Status: proved. Lists of forward and reversed propagators for every number of steps, propagator sequence and initial state; c27_readable shows that every accepted Schroedinger configuration yields the propagators exp(-i(H0+sum u H)).
* **C28 Schroedinger evolution is unitary** — Skew-Hermitian generator, exponential contract; induction over steps.
  Modules: Solver/PropThms. Status: proved. Methods Frechet (scipy expm contract) and spectral with is_skew_hermitian (eigh contract); Taylor methods are not unitary by construction.
* **C29 Cached results always belong to the current parameters** — Solver/Cache: state machine with cache fields, ops set/read; invariant by induction over histories.
  Modules: Solver/CacheThms, Solver/PropThms. Status: partial. Proved for every history and every Stable configuration, and for every configuration if the history does not read derivatives. Violated (proved) for grape with calculate_propagator_derivatives=True and for Taylor methods with it False: the order of reads changes the results.
* **C30 A rejected pulse does not corrupt the solver** — Same machine with rejecting validation; negation by witness history.
  Modules: Solver/CacheThms. Status: partial. Proved for a pulse different from the last one tried, after any history including exceptions. Violated (proved for every solver): a rejected pulse is accepted the second time and older results are reported.
* **C31 Changing the time grid invalidates derived amplitudes** — Same machine with set_times; negation by witness history, _partial for fresh pulses.
  Modules: Solver/CacheThms, Solver/PropThms. Status: partial. Proved for a different pulse and a grid not longer than the original. Violated (proved): same pulse after set_times is not recomputed, and a longer grid raises IndexError with a single drift operator.
* **C32 Propagator derivatives are indexed [control][time]** — Index order of both derivative paths; negation for grape, theorem for exact path.
  Modules: Solver/PropThms. Status: partial. Proved for the default method Frechet. Violated (proved) for grape, whose derivatives are indexed [time][control]; spectral see C21.
* **C33 Monte Carlo without noise reproduces the noiseless solver** — Solver/MonteCarlo: generators as lists; zero samples.
  Modules: Solver/MonteCarloThms. Status: proved. All sample shapes within range, all numbers of traces and processes.
* **C34 Each noise trace uses its own samples** — Same model; non-interference.
  Modules: Solver/MonteCarloThms. Status: proved. Propagators, forward and reversed propagation of every trace; independence of other traces. noise_amplitude_function None (the general case is C37).
* **C35 Parallel and serial propagation agree** — Pool.map as List.map with arbitrary completion order; equality of results.
  Modules: Solver/MonteCarloThms. Status: proved. Equality of the results including exceptions; rejection of other values and of derivatives in parallel mode. Pool.map is modelled as the map over the list.
* **C36 Noise traces must cover the whole pulse** — enumerate over fewer samples leaves remaining steps unchanged; negation by witness.
  Modules: Solver/MonteCarloThms. Status: partial. Violated (proved for every solver): too few samples are accepted and the later steps are propagated without noise. The partial theorem: too many samples or traces raise IndexError.
* **C37 Control noise acts through the amplitude function** — Control noise amplitude construction.
  Modules: Solver/MonteCarloThms, Solver/MonteCarloErrors. Status: proved. Any amplitude function; numpy broadcasting of single columns is not modelled.
* **C38 Lindblad generator is the master equation** — Solver/Lindblad: kronecker identities vs vectorised master equation.
  Modules: Solver/LindbladThms, Solver/LindbladErrors. Status: proved. For Lindblad operators with or without prefactor function (any real weights), Hermitian drift and control Hamiltonians, all time steps; master equation stated independently on d x d matrices, column stacking vectorisation of Mathlib.
* **C39 Lindblad evolution preserves trace and Hermiticity** — Left-null vector of the generator, conjugation symmetry; lifted to the exponential and to products.
  Modules: Solver/LindbladThms. Status: proved. Trace and Hermiticity preservation of every propagator and forward propagator for method Frechet under the expm contract, Lindblad operators with arbitrary real prefactors.
* **C40 Lindblad solver without dissipation reproduces the Schroedinger solver** — exp(A (x) 1 + 1 (x) B) = exp A (x) exp B.
  Modules: Solver/LindbladThms. Status: proved. For each step and the forward propagation, all Hamiltonians (not only Hermitian ones), vanishing dissipation given in any of the accepted ways; method Frechet for both solvers.
* **C41 Derivative directions are the derivatives of the generator** — Linear dependence of the generator on the amplitudes; Lindblad needs Hermitian controls.
  Modules: Solver/PropThms, Solver/LindbladAfterError, Solver/LindbladThms. Status: proved. Schroedinger solver: all inputs. Lindblad solver: constant Lindblad operators, prefactor functions (with correct derivative function in the order time, control, operator that the code uses; the doc string says time, operator, control) and super operator functions; Hermitian controls (the direction uses the transpose where the generator uses the conjugate).
* **C42 Constructing or using a solver does not modify the caller's operators** — In-place += on the caller's first operator; negation by witness, _partial for one operator.
  Modules: Solver/LindbladThms. Status: partial. Violated for two or more constant super operators: the first operator of the list passed by the caller accumulates the others (c42_violated). Proved for Lindblad operators, prefactor functions, super operator functions and at most one constant super operator.
* **C43 Entanglement fidelity is a fidelity** — Cost/Fidelity: Cauchy-Schwarz for the trace inner product with equality case.
  Modules: Cost/Fidelity. Status: proved. Range, the characterisation of 1 (equality up to a phase), phase and unitary invariance, symmetry; on distinct computational states the fidelity is bounded by one minus the leakage.
* **C44 Gradient of the operation infidelity is its derivative** — Cost/Gradient: HasDerivAt through the product of propagators.
  Modules: Cost/Gradient, Cost/Solver. Status: proved. For every sweep of one propagator, unitary and super operator form; c44_schroedinger is end to end with the Schroedinger solver (Frechet derivatives). The map to the closest unitary is the subject of C45.
* **C45 Gradient respects map_to_closest_unitary** — Negation: gradient independent of the flag; witness.
  Modules: Cost/ClosestGrad. Status: partial. Violated (c45_violated): grad() does not pass map_to_closest_unitary on; for a rotated qubit truncated to one state the cost is constant 0 while the gradient is 24/25. Holds without computational states.
* **C46 Super-operator fidelity agrees with the unitary fidelity** — Trace of kronecker products; embedding of the target into the full space.
  Modules: Cost/Fidelity. Status: proved. For every propagator and target, with and without distinct computational states.
* **C47 Liouville Monte Carlo fidelity is the average fidelity** — Linearity of the trace over the trace average.
  Modules: Cost/Fidelity. Status: proved. For every number of traces.
* **C48 Noise infidelity gradient includes the moving reference** — Product rule with moving target.
  Modules: Cost/Gradient, Cost/ClosestGrad. Status: partial. Proved for both settings of neglect_systematic_errors and every number of traces without map_to_closest_unitary (or without computational states); with both c48_violated.
* **C49 Leakage measures are consistent** — Frobenius norm of blocks of a unitary.
  Modules: Cost/Leakage. Status: proved. Range, zero exactly for unitary truncation, agreement with the Liouville form, trace averages.
* **C50 Leakage gradient is the derivative** — HasDerivAt. Cost/LeakTotal: the final propagator is unitary, so the clipped and unclipped leakage agree everywhere.
  Modules: Cost/Leakage, Cost/LeakTotal. Status: proved. c50_gradient: where the leakage is positive (clipping inactive); c50_schroedinger is end to end with the Schroedinger solver; c50_total: total derivative without that condition for Hermitian Hamiltonians and a unitary initial operator.
* **C51 State fidelity is a fidelity with the right gradient** — Cauchy-Schwarz on vectors and HasDerivAt.
  Modules: Cost/State. Status: proved. Kets of two or more dimensions; the effect of rescale_propagated_state is nil there. Gradient end to end for the Frechet method.
* **C52 Subspace state fidelity reduces correctly** — Partial trace model of C18 with two subsystem groups.
  Modules: Cost/Subspace. Status: partial. Proved when some but not all subsystems are removed; removing none or all raises TypeError (violation proved). For a matrix whose expectation value has an imaginary part above 1e-5 the code means to warn and return the absolute value, but raises IndexError (c52_violated_complex).
* **C53 Rotation axis and angle describe the unitary** — Cost/AngleAxis: exact-arithmetic version (tolerances 0); reconstruction; negation for acceptance of a non-unitary matrix.
  Modules: Cost/Angle. Status: partial. Proved for unitary matrices (exact outside the tolerance, 3e-6 inside). A non-unitary matrix is accepted: violation proved with a witness.
* **C54 Average gate fidelity matches the entanglement fidelity** — 2x2 computation.
  Modules: Cost/Angle. Status: proved. For every 2x2 matrix.
* **C55 Simulator gradient is the full chain rule** — Sim/ChainRule: composition of derivative maps.
  Modules: Sim/Thms. Status: partial. Proved for every simulator state, transfer function object (any nesting, matrices that fit the grid), identity, unary and time-local custom amplitude functions, and every cost function whose grad is the total derivative of its costs by the amplitudes (costFn_correct_of_hasFDerivAt gives this hypothesis in terms of HasFDerivAt). False for custom amplitude functions mixing time steps (c55_violated).
* **C56 Costs are reported in the order of their labels** — Sim/Simulator: concatenation order.
  Modules: Sim/Thms. Status: proved. Positions of values, labels and Jacobian rows agree; empty list of cost functions raises.
* **C57 Finite differences are exact on low-degree costs** — Sim/Numeric: algebra of finite differences.
  Modules: Sim/Numeric. Status: proved. Exact for affine (forward) and quadratic (symmetric) costs; the bias of forward differences on quadratic costs is stated too. "Leaves the pulse unchanged" is stated for the pulse attribute; arrays are values in the model, so in-place modification of the argument cannot be expressed.
* **C58 The pulse setter configures the solvers with the given pulse** — State machine of the setter; negation by witness.
  Modules: Sim/Numeric. Status: partial. Proved: after any history the next evaluation without argument uses the last assigned pulse. Violated: the assignment itself does not reach the solvers, records the shape of the previous pulse, and raises AttributeError when no pulse was set before (c58_violated).
* **C59 Flattening and unflattening the pulse are inverse** — Optim/Flatten: index bijection for reshape([::-1]).T.
  Modules: Optim/Flatten. Status: proved. Reshaping and flattening are mutually inverse for every shape, bounds flattened like the pulse constrain the same entries, and column k of the flattened Jacobian is the derivative with respect to vector entry k.
* **C60 The optimisation summary records what was evaluated** — Optim/Wrapper: heap of cost arrays with in-place weighting; negation by witness, _partial for weights None.
  Modules: Optim/Records, Optim/Violations. Status: partial. Proved without weights for every history in which the caller does not overwrite shared arrays; the gradients (c60_gradients_partial) for every history. With weights the stored costs are multiplied in place (c60_violated_weights); a caller that reuses its vector changes the recorded parameters (c60_violated_reuse).
* **C61 The best evaluation is remembered** — Same machine; negation by witness with weights, _partial invariant without weights.
  Modules: Optim/Records, Optim/Violations. Status: partial. Proved without weights. With weights the stored minimum is multiplied in place and later compared with unweighted costs (c61_violated).
* **C62 Optimizers are independent of each other** — Shared dictionary reference; negation by witness.
  Modules: Optim/Termination. Status: partial. Proved only for constructions without termination_cond. All optimizers share the dictionary of the library (c62_shared), so every explicit condition changes the defaults and all other optimizers (c62_violated, c62_violated_annealer).
* **C63 A time-limited optimisation returns its best point** — write_state_to_result reshapes twice; negation by witness; _partial for one control or one time step.
  Modules: Optim/Records, Optim/Violations. Status: partial. Proved for pulses with one time step or one control and no weights. The stored (time, control) array is reshaped a second time before the Jacobian is evaluated (c63_violated_shape), and without an evaluation an AttributeError escapes (c63_violated_early).
* **C64 Scalar optimisers minimise the weighted sum with its gradient** — Sums.
  Modules: Optim/Scalar. Status: proved. Objective and gradient for every state, vector, cost vector, Jacobian and weights; consistency of the two via C59.
* **C65 Annealing moves respect the bounds** — Optim/Anneal: clamp invariant by induction over moves.
  Modules: Optim/Anneal. Status: partial. Proved for float pulses and for integer pulses with integer bounds. For integer pulses with other bounds the bound is truncated on assignment and the move leaves the bounds (c65_violated).
* **C66 A data container is a faithful log of results** — Data/Container: log refinement by induction.
  Modules: Data/ContainerThms. Status: proved. Histories of creating containers and appending results over a heap of Python lists; the logs are compared with a specification that replays the operations.
* **C67 Data container dictionary round-trip** — Round trip.
  Modules: Data/ContainerThms. Status: proved. Round trip of the dictionary for every container; keys and errors included.
* **C68 Optimisation result round-trip** — Negation by witness (status lost), _partial for the other fields.
  Modules: Data/ContainerThms. Status: partial. The round trip loses status: it is the identity exactly for results whose status is None (c68_iff); negation proved.
* **C69 Parallel optimisation returns results in input order** — Data/Parallel: starmap as order-preserving map under any completion order.
  Modules: Data/Parallel. Status: partial. Proved for every schedule and number of processes when the outcome of a run does not depend on process-wide state; with the global random generator workers share their state and the property fails (c69_violated).
* **C70 The analyser picks the best run** — Data/Analyser: argmin over lists.
  Modules: Data/Analyser. Status: partial. n_least_square proved for all inputs; absolute_costs proved when every run has at least one step and all steps have the same number of costs; a run without steps makes it raise (c70_violated_empty_run).
* **C71 Quasi-static noise samples hit one operator at a time** — Noise/QuasiStatic: index structure.
  Modules: Noise/QuasiStatic. Status: proved. Exact value of every entry of the sample array for all sizes, in both modes.
* **C72 Deterministic Gaussian samples are unbiased and ordered** — Noise/Gauss: quantile function as parameter (odd, strictly increasing).
  Modules: Noise/Gauss. Status: proved. erfinv is a parameter with the contract erf(erfinv y) = y, shown to be satisfiable; erf is defined by its integral. Also: between adjacent samples lies exactly the n-th part of the normal distribution.
* **C73 Corrected samples have the requested standard deviation** — Homogeneity of the standard deviation; negation for several operators, _partial for one.
  Modules: Noise/QuasiStatic. Status: partial. Holds for a single operator; for two or more operators the standard deviation is strictly too small for every list and every number of traces (c73_violated, exact value c73_value).
* **C74 Noise generators do not modify the caller's arguments** — Heap model of the caller's list; negation by witness.
  Modules: Noise/QuasiStatic. Status: partial. The correction changes the list of the caller: every positive entry strictly increases (c74_violated), also when the constructor raises. Without correction nothing is changed.
* **C75 Bell curves are normalised** — Gaussian integral; 1-dim negated, 2-dim proved.
  Modules: Noise/Gauss. Status: partial. The two-dimensional curve integrates to one; the one-dimensional curve integrates to 1/sqrt(2 pi) for every standard deviation (c75_violated).
* **C76 Coloured noise has no DC component and the documented length** — Inverse real FFT as explicit trigonometric sum; power-of-two branch negated.
  Modules: Noise/Colored. Status: partial. Sum zero proved for all inputs. With r_power_of_two the length is rounded up instead of down (c76_violated).
* **C77 Stored noise samples are stable unless redraw is requested** — State machine with a random stream.
  Modules: Noise/Redraw. Status: proved. Histories of reads of samples and counts and switches of always_redraw_samples over an arbitrary drawing function.
* **C78 A failed propagation is not reported as a result** — Solver/Cache machine; failed exponentials as Except values, histories with exceptions.
  Modules: Solver/CacheThms. Status: partial. Recovery by a different pulse proved for all histories; violated (proved): after a failed computation the second read returns a list of None.
* **C79 A drift list accepted by the constructor can be propagated** — Solver/Model constructor and the expansion of the drift list.
  Modules: Solver/PropThms, Solver/CacheThms. Status: partial. One operator and one per step proved to propagate, other lengths proved to be rejected (c79_nonempty_partial); violated (proved) for the empty list.
* **C80 Noise averaged state infidelity** — Cost/State: mean over the traces of the infidelity of C51; range by the Cauchy-Schwarz inequality, zero case from C51.
  Modules: Cost/State. Status: partial. c80_value, c80_range, c80_zero_partial. Violated on a subspace if systematic errors are neglected and the noiseless final state is not in the subspace: without any noise the result is 1 - w^2 with w its weight in the subspace (c80_violated_leakage).
* **C81 A data container can be deep copied** — Data/Container: heap of lists, deepcopy as method with its real signature.
  Modules: Data/ContainerThms. Status: partial. The method has no memo parameter, copy.deepcopy always raises TypeError (c81_violated); the method itself called directly gives an independent equal container.
* **C82 Coloured noise has the requested spectrum** — Noise/Colored: explicit inverse real FFT of random phases; density values at the sampled frequencies.
  Modules: Noise/Colored. Status: partial. Proved for even lengths; for odd lengths the density is evaluated at k/((n-1) dt) instead of k/(n dt) (c82_odd_value, c82_violated).
* **C83 Coloured noise samples have the requested shape** — Noise/Colored: array shape, truncation of the extended trace, argument checks.
  Modules: Noise/Colored. Status: proved. Shape, prefix property and rejected arguments.
* **C84 A custom transfer matrix fixes its time grid** — Transfer/Custom: CustomMTF.set_times with the implied oversampling; arithmetic of the shapes; negations for all objects of each class.
  Modules: Transfer/Custom. Status: partial. Proved for the first grid of an object without explicit x_times and a matrix that fits. Violated: explicit x_times are replaced and every call raises RuntimeError; the second set_times stores the raw durations as x_times; with padding the quotient is truncated without a check; the first set_times accepts a grid of any length, and calls then raise or (matrix with one column, pulse with one row) return a number of rows that is not the number of durations.
* **C85 The statistics in a result describe that run only** — Data/Stats: heap of statistics objects, simulator, three optimizers, sessions; frame argument by induction over the session.
  Modules: Data/Stats. Status: partial. Proved: after the start of the next optimization the statistics of a run never change again; the results of a session never share an object. Violated: the simulator keeps writing into the object of the last run when the user evaluates it afterwards (c85_violated).
* **C86 Recorded evaluation times add up** — Data/Stats: clock in the world, invariant of the current object over all calls; column sums of the analyser equal the sum of all entries.
  Modules: Data/Stats. Status: partial. Proved for every run except least-squares runs that exceed the wall time with a Jacobian function, and for the analyser over any sequence of such runs. Violated: write_state_to_result takes the end time before it computes the Jacobian (c86_violated_wall_time); with numeric_jacobian gradient times are recorded as cost times (c86_violated_numeric).
* **C87 The filter function package receives the current pulse** — Solver/PulseSeq: solver state with the cached pulse sequence, the identifiers and the frequencies of the cost function; invariant that a cached sequence describes the state, by induction over histories. The package itself is a parameter.
  Modules: Solver/PulseSeq, Solver/MonteCarloErrors. Status: partial. Proved for the Schroedinger solvers: amplitudes, durations, noise terms and identifiers after every history; given frequencies and the solver's basis are always used; malformed terms are rejected. Violated: Monte Carlo solvers never fill the identifiers (c87_violated_identifiers) and call the documented three-argument callable with one argument (c87_violated_callable); default frequencies stay those of the first pulse sequence (c87_violated_frequencies); a basis named once sticks (c87_violated_basis).
* **C88 The exported fidelity derivatives are derivatives** — Cost/Legacy: the loops filling the result array as functions over lists of propagators; agreement with the derivative of the trace by the product rule.
  Modules: Cost/Legacy. Status: partial. Proved: with exact propagator derivatives the function with_du returns the exact derivative of the average gate fidelity for every entry; derivative_average_gate_fidelity does so with the derivatives of the grape approximation and Hermitian controls; derivative_entanglement_fidelity for an array of one duration. Violated: derivative_entanglement_fidelity with a list of durations raises TypeError and with an array of two or more durations ValueError (c88_violated).
* **C89 OperatorMatrixNorm measures the distance up to a global phase** — Cost/MatrixNorm: constructor and costs; the phase correction computed from the first entry; norms of lists of complex numbers.
  Modules: Cost/MatrixNorm. Status: partial. Proved for the method costs: the global phase of the propagator is ignored, zero costs iff equality up to a phase when target[0,0] is positive, and the number of labels. Violated: the phase of the target is not removed (c89_violated_target), a propagator with vanishing first entry raises NotImplementedError (c89_violated_first_entry), and the constructor always raises TypeError because super().__init__() is called without the solver (c89_violated_constructor). The gradient is the subject of C141.
* **C90 compare_numeric_to_analytic_gradient measures the error of grad()** — Sim/Compare: the comparison on top of the model of numeric_gradient and wrapped_jac_function; triangle inequality for the norm of lists; C55, C57 and limits of difference quotients.
  Modules: Sim/Compare. Status: partial. Proved: meaning and bounds of the two numbers (c90_measure); limit zero for every correct, differentiable cost function (c90_limit); exactly zero for quadratic costs with symmetric and affine costs with forward differences (c90_consistent). Violated: with numeric_jacobian=True the numeric gradient is compared with itself, so the result is zero whatever grad() returns (c90_violated_numeric).
* **C91 dexp with methods Frechet and approx is the derivative of the exponential** — Operator/Methods: on top of the model of exp and dexp; slope characterisation of the derivative, continuity of the exponential along a line.
  Modules: Operator/Methods. Status: partial. Proved: Frechet (c91_frechet, given scipy's contract), the limit of approx for normal matrices with distinct eigenvalues (c91_approx_partial), unknown methods (c91_unknown; exp raises ValueError although NotImplementedError is documented). Violated: approx subtracts the exponential of the default spectral method, so for every matrix where that one is wrong some entry diverges as epsilon tends to zero (c91_violated_approx), for instance [[0,1],[0,1]] and every tau (c91_violated_witness).
* **C92 The Taylor methods approximate the exponential to their order** — Operator/Methods: the returned polynomial is the partial sum of the exponential series; remainder bounded by the series of the norms.
  Modules: Operator/Methods. Status: proved. c92_taylor_error; decimal constants are read as the fractions they stand for.
* **C93 The Jacobian handed to the optimiser is the exact gradient, from parameters to infidelity** — Cost/Total: entries of the final propagator are differentiable in all amplitudes (the exponential is analytic), so the partial derivatives of C44 and C51 give the total derivative. Cost/NoiseTotal: the same for the noise average, each trace being a noiseless solver with another drift (C94). Sim/Schroed: cost functions on Schroedinger solvers as cost functions of the simulator; chain rule of C55; success of the call from the shape theorem C15.
  Modules: Cost/NoiseTotal, Cost/Total, Sim/Schroed. Status: proved. c93_gradient; c93_operation_total, c93_state_total and c93_noise_total (and c50_total, c98_total) say that the gradients of the cost functions are the total derivative with respect to the whole array of amplitudes. The scipy routines expm and expm_frechet enter with their documented meaning (ExpmOk, FrechetOk).
* **C94 Every noise trace of the Monte Carlo solver is a noiseless solver whose drift contains the noise** — Solver/NoiseTrace: derivsNoise is the model of the property; the generator of trace k is the noiseless generator with the noise moved to the drift, the serial and the pooled run are then compared with specProps, specFwd, specRev and specDeriv of C21 and C23.
  Modules: Solver/NoiseTrace. Status: proved. c94_traces, c94_derivatives, c94_grape. The multiprocessing pool enters as an order preserving map.
* **C95 Gradients with noise that depends on the pulse** — Sim/ControlNoise: noise amplitudes enter only through the generators, so a run with a noise amplitude function equals the run of a Monte Carlo solver with those amplitudes as samples, to which C93 applies. Witness: one qubit, one control sigma_z, one step, computed in closed form through the simulator.
  Modules: Sim/ControlNoise. Status: partial. Violated: c95_violated (amplitude x**2, the Jacobian of the simulator is 0 where the cost has slope sqrt(pi)). Proved instead: the gradient is the derivative at frozen noise amplitudes (c95_frozen_partial), hence right when the noise on the amplitudes does not depend on the pulse, e.g. for affine amplitude functions (c95_additive_partial).
* **C96 The Lindblad evolution is completely positive** — Solver/Positivity: the generator is drift plus jump part, (1 + t/n G) is a completely positive map up to O(1/n^2), powers of completely positive maps are completely positive and the cone is closed, so exp(t G) is in it. Kraus operators from the spectral decomposition of the Choi matrix.
  Modules: Solver/Positivity. Status: proved. c96_completely_positive, c96_density and c96_kraus (Kraus operators K with sum K^dagger K = 1). An example shows that a negative prefactor makes the evolution leave the density matrices, so the condition is needed; the code does not check it.
* **C97 Infidelity and leakage of an open system are probabilities** — Cost/SupRange: with the Kraus operators of C96 the infidelity is 1/d times a sum of squared distances of K restricted to the computational states from multiples of the target; the leakage is a partial trace of the evolved density matrix.
  Modules: Cost/SupRange. Status: proved. c97_infidelity and c97_leakage, on the forward propagators the solver returns (c96). Conditions: distinct, non-empty computational states, unitary target, non-negative steps and prefactors.
* **C98 Gradient of the infidelity of an open system is its total derivative** — Cost/LindbladTotal: all ways of giving the dissipation reduce to a differentiable dissipator E t v with derivative E' t k v; the generator is a differentiable function of the amplitudes whose derivative is the direction the solver computes; the derivative of the exponential along a curve only depends on the tangent (the exponential is analytic), so expm_frechet gives the derivative although the generator is not linear in the amplitude; C44 for super operators and total_of_entries.
  Modules: Cost/LindbladTotal. Status: proved. c98_total. The functions given by the user may depend on the amplitudes of the same time step only and not on the transferred parameters; expm and expm_frechet enter with their documented meaning. Through simulator, transfer and amplitude functions: c93_gradient.
* **C99 Results of a LindbladSolver do not depend on the history of calls** — Solver/LindbladCache models the solver as a state with the caches _dyn_gen (d x d or d^2 x d^2), _prop, _prop_rev, _fwd_prop, _derivative_prop, _diss_sup_op, _diss_sup_op_deriv and the list initial_diss_super_op that is changed in place. Solver/LindbladCacheThms: every operation simulates the cached Schroedinger solver of C28 to C31 with the generators of the current pulse as long as the dissipation is computable (Sim); what survives exceptions is DissInv; induction over the calls.
  Modules: Solver/LindbladCacheThms, Solver/LindbladAfterError. Status: partial. c99_new_pulse_partial: a newly set pulse after any history (calls may raise), grids with the same number of steps, dissipation computable for the new pulse. c99_history_partial: any sequence of successful calls on one grid. c99_values ties the object to the functions of C38 to C41 and C98. Violated: after a read that raised because no dissipation was given, the next read returns the d x d propagators of the Schroedinger equation (c99_violated), the reversed propagators are products of those, the other reads raise ValueError (c99_violated_reads); constant dissipation is kept when the number of steps shrinks (c99_violated_grid). A derivative function given without its function is excluded.
* **C100 One noise realisation per pulse in a Monte Carlo solver** — Solver/MonteCarloCache: the solver as a state (caches of the parent class, _dyn_gen_noise, _prop_noise, _derivative_prop_noise, _fwd_prop_noise, _reversed_prop_noise, state of the noise trace generator), every method with what it leaves behind when it raises. Solver/MonteCarloCacheThms: invariant NInv (every cache holds the value of the functions of C34 and C94 for the samples A; nothing is cached before the generators); each computation raises exactly what the specification raises and otherwise keeps the invariant; induction over the operations.
  Modules: Solver/MonteCarloCacheThms, Solver/MonteCarloErrors. Status: partial. c100_realisation_partial: as long as no read since the pulse was set has raised, every read (value or exception) is that of the samples drawn once. c100_draws: one read of the generator per pulse in a session. c100_total: no read raises if the results are computable. c100_values: trace k is the solver without noise whose drift contains the samples of trace k. Violated after exceptions: c100_violated_samples, c100_violated_parallel. The number of traces is a constant of the model.
* **C101 A simulated annealing run returns the best pulse it evaluated** — Optim/AnnealRun: run_optimization, prepare_optimization, energy (through cost_func_wrapper with its heap and the transposed flattened state), move, and the loop of simanneal with random numbers and times as arguments. Invariant of the loop: the best state is among the simulated pulses, its energy is the norm of its costs and least; the previous state is within the bounds.
  Modules: Optim/AnnealRun. Status: partial. c101_best: best pulse, cost and number of evaluations. c101_within_partial: bounds (representable in the data type of the pulse). c101_returns: a result is returned whenever the step size, bounds and temperatures are valid, the time suffices and the simulator does not raise. Violated for the description of the run: c101_violated_report, c101_violated_costs, c101_violated_wall. simanneal.Annealer.anneal is modelled from its published source (trusted).
* **C102 Results of a simulator do not depend on what was evaluated before** — Sim/History: the simulator over the solvers with caches of C29 (Schroedinger) and C99 (Lindblad); a cost function is any program which reads results of its solver and stops at the first exception. Invariant of all calls: the caches of each solver are valid for the last accepted pulse, and the stored pulse is this one or one for which a call has raised.
  Modules: Sim/History. Status: partial. c102_history_partial: every pulse for which no earlier call has raised; calls for other pulses may have raised. c102_order: without exceptions the order does not matter. Violated after an exception: c102_violated (a pulse which a solver rejects is accepted the second time, and the costs of the previous pulse are returned for it).
* **C103 Oversampling a pulse changes neither the evolution nor costs and gradients** — Sim/Refine: transfer function of C04, solver of C29, simulator of C93; exp(s A / r)^r = exp(s A); gradients agree because both are the derivatives of the same function (C93).
  Modules: Sim/Refine. Status: proved. c103_forward (any padding; methods 'Frechet' with the contract of expm, and 'spectral' with the contract of eigh and Hermitian operators), c103_costs and c103_gradient (no padding, method 'Frechet'). The approximate methods are outside: their error depends on the step length.
* **C104 Units of energy, choice of basis and zero of energy do not change costs and gradients** — Sim/Covariance: exp(V A V^H) = V exp(A) V^H and exp(c 1 + A) = e^c exp(A) step by step; every infidelity is a function of the modulus of an overlap; gradients agree because both are the derivatives of the same function (C93).
  Modules: Sim/Covariance. Status: proved. c104_forward (methods 'Frechet' with the contract of expm, and 'spectral' with the contract of eigh and Hermitian operators), c104_costs and c104_gradient (method 'Frechet', transfer functions which act in the same way in both units of time; run_scaled shows this for OversamplingTF). The approximate methods are not invariant under a shift of the energy.
* **C105 A pulse can be recovered from its exponentially smoothed amplitudes** — Transfer/Reverse: the attributes are optional values; recursion against the closed form of the amplitudes (C14).
  Modules: Transfer/Reverse. Status: partial. Injectivity holds (c105_injective). reverse_state reads two attributes that nothing sets: it always raises AttributeError (c105_violated), also when the first is set by hand (c105_violated_attribute). With the attributes set by hand, the start value to the offset, it recovers the pulse plus the offset when there is no padding at the start, with and without the argument times (c105_reverse_partial); not with padding (c105_violated_padding), another start value (c105_violated_start) or a single time (c105_violated_single).
* **C106 Two-dimensional Gaussian samples: the promised number, with equal weight between them** — Noise/Sample2d: the greedy loop over cells by induction; bounds on the normalisation of the discrete bell curve.
  Modules: Noise/Sample2d. Status: partial. Never more than n_samples samples (c106_at_most); exactly n_samples and equal weights up to 1/1200^2 for n_samples up to a million (c106_count_partial, c106_spread_partial); fewer than n_samples when n_samples exceeds 10^8 (c106_violated). Not decided: between a million and 10^8.
* **C107 The energy spectrum plot shows the eigenvalues, coloured by the composition of the eigenstates** — Data/Spectrum: roots of the characteristic polynomial of a unitary diagonalisation; two diagonalisations of a nondegenerate matrix differ by phases. scipy.linalg.eigh is a parameter with the contract `EighSorted`; drawing is outside the model.
  Modules: Data/Spectrum. Status: partial. Everything about the plot is proved (c107_energies, c107_colours, c107_colour_range, c107_colour_moduli, c107_colour_basis, c107_unique). The documented layout of vector_color_map is violated: it colours rows (c107_violated_columns).
* **C108 The Bloch sphere plot shows the Bloch vectors of the evolved state** — Data/Bloch: a density matrix is determined by its Bloch vector; direct computation for 2 x 2 matrices. qutip.expect is modelled by its documented value.
  Modules: Data/Bloch. Status: partial. Proved for kets (c108_kets, c108_faithful, c108_errors). Violated for density matrices (c108_violated_density): the state is multiplied from the left only.
* **C109 Coloured noise has the autocovariance and the expected periodogram of its spectral density** — Noise/Stationary: randn is a family of random variables on a probability space with the contract iIndepFun and standard normal law (existence by the infinite product measure). Colouring is a convolution; the convolution of the kernel with itself is the kernel of the squared amplitudes. scipy.signal.periodogram is modelled by its defining sum.
  Modules: Noise/Stationary. Status: partial. Proved for even lengths (c109_covariance_partial, c109_generator_partial, c109_periodogram_partial, c109_rejects). Violated for odd lengths (c109_violated, c109_violated_periodogram_odd: the density is evaluated at k/((n-1) dt)) and for scaling='spectrum' (c109_violated_scaling: a power is compared with a density).
* **C110 Control amplitudes given to the constructor act like a pulse** — Solver/InitAmps: the solver object of C29 with an initial value of _ctrl_amps; the cache invariant of C29 for these amplitudes.
  Modules: Solver/InitAmps. Status: partial. Proved for amplitudes of the right shape (c110_initial_partial, c110_forgotten). Violated for too few rows (c110_violated_rows): the constructor does not look at the shape and the missing steps evolve without control.
* **C111 The noise infidelity is an unbiased estimate of the average over the noise** — Cost/Estimator: the cost function of C93 as a random variable on the probability space of the noise; range of the infidelity from unitarity, then Hoeffding's inequality.
  Modules: Cost/Estimator. Status: proved. Mean, variance and Hoeffding bound in c111_estimator; the generators satisfy its hypothesis (c111_quasi_static, c111_colored). Random numbers are independent standard normals (np.random contract). The projection of the truncated propagator to a unitary matrix (map_to_closest_unitary on a proper subspace) is excluded.
* **C112 The gradient of the noise infidelity is an unbiased estimate of the gradient of the noise average** — Cost/StochGrad: the gradient of C93 as a random variable. Duhamel's formula gives a Lipschitz bound of the infidelity in the amplitudes that does not depend on the noise, so that the derivative may be taken under the integral.
  Modules: Cost/StochGrad. Status: proved. c112_unbiased, c112_quasi_static. Gradients are computed in one process with the Frechet method, as for C93; amplitudes are the variables (reachable through the amplitude and transfer functions). Projection to the closest unitary on a proper subspace is excluded.
* **C113 The gradient of the filter function infidelity is the derivative of the reported infidelity** — Solver/PulseGrad: the gradient on top of the histories of C87. The arguments of gradient and cost are the same, so the contract of the package gives the derivative; only the susceptibilities at the changed time may vary.
  Modules: Solver/PulseGrad. Status: proved. c113_arguments, c113_layout, c113_derivative. The package filter_functions is a parameter with the contract Pkg.Correct and Pkg.Shape (exPkg satisfies it); the frequencies are given to the cost function in c113_derivative.
* **C114 The noise infidelity from deterministic samples converges to the average over normally distributed noise** — Noise/Quadrature: the mean over the samples is an integral over the unit interval of a step function that converges to the quantile function; dominated convergence, then substitution of the cumulative distribution. The variance of the samples is below that of the distribution (C73) and above that of its truncations, so the corrected deviation converges to the requested one. Cost/Deterministic: the traces of C71 inserted into the cost of C111.
  Modules: Cost/Deterministic. Status: proved. c114_value, c114_convergence. scipy.special.erfinv is a parameter with the contract IsErfinv. Convergence without a rate; projection to the closest unitary on a proper subspace is excluded, as for C111.
* **C115 Pulses compose** — Sim/Composition: the forward propagators are determined by the list of exponentials (forward_unique); lists of exponentials are appended, permuted and mirrored.
  Modules: Sim/Composition. Status: proved. c115_concat, c115_product, c115_zero_step, c115_order, c115_idle, c115_reversal. Derivatives in c115_order and c115_idle are those of the Frechet method without approximation.
* **C116 Accuracy of the grape approximation** — Verif/Cost/Grape.lean: conj_move (mean value inequality for exp(rA) E exp(-rA)) and Duhamel's formula give grape_error; the propagators are unitary, so an error of a derivative reaches an entry of the gradient at most doubled (entry_close: |tr M| <= d |M| and truncation does not increase the norm).
  Modules: Cost/Grape. Status: partial. c116_step bounds the error of every entry of frechet_deriv_propagators (found at [t][c], see C32), c116_gradient the error of the gradient for neglect_systematic_errors=False. c116_violated_default: with the default neglect_systematic_errors=True the gradient raises an exception whenever the numbers of time steps and controls differ, because the derivatives without noise are arranged [time step][control].
* **C117 How much noise and amplitude errors can change the infidelity** — Verif/Cost/Sensitivity.lean: exp is 1-Lipschitz on skew-Hermitian matrices (derivative of exp((1-s)B) exp(sA)), errors of unitary factors add up (foldl_lip), |tr(T^H X)|^2/d^2 is 2-Lipschitz on contractions (entFid_lip), 1 - |x|^2 <= 2 - 2 Re x (entFid_quadratic), and the bound of the gradient follows from C93 and the Lipschitz bound of the cost.
  Modules: Cost/Sensitivity. Status: proved. c117_amplitudes (costs and gradient), c117_perfect (pulses which implement the target), c117_noise and c117_second_order. The propagators are those of the exact expm (contract ExpmOk), exceptions for invalid shapes are excluded by Valid/NoisySystem. map_to_closest_unitary only without computational states, as the argument of the singular value decomposition is not continuous.
* **C118 A gate of small infidelity is good for every initial state** — Verif/Cost/Worst.lean: the trace is the sum of the diagonal entries in every basis (trace_basis, Cauchy-Schwarz), a normalised state is a column of a unitary (extend_unitary), the state solver multiplies the same propagators (started_final).
  Modules: Cost/Worst. Status: proved. c118_basis, c118_state, c118_leakage, c118_no_converse. The propagators are those of the exact expm (contract ExpmOk). map_to_closest_unitary only without computational states.
* **C119 With commuting Hamiltonians only the area of the pulse counts** — Verif/Cost/Commuting.lean: the product of exponentials of commuting matrices is the exponential of the sum (foldl_exp_commute); the gradient is the derivative of a function of the integrated Hamiltonian.
  Modules: Cost/Commuting. Status: proved. c119_evolution, c119_area, c119_gradient. The propagators and derivatives are those of the exact expm and expm_frechet (contracts ExpmOk, FrechetOk). map_to_closest_unitary only without computational states for the gradient.
* **C120 The numbers of evaluations an optimizer reports** — Verif/Optim/Count.lean: induction on the history with the specification functions evaluations and gradientEvaluations of C60.
  Modules: Optim/Count. Status: proved. c120_counts, c120_result. Results of optimisations which are not ended by the time limit take num_iter from scipy, which is not modelled.
* **C121 The infidelity is smooth with explicit constants** — Verif/Cost/Smooth.lean: Duhamel's formula bounds the second difference of a step, second differences of products, traces and squares follow (Square), Bent turns them into statements about the gradient. Verif/Sim/FiniteDiff.lean: the simulator with numericGradient_eq (C57) and c93_gradient.
  Modules: Cost/Smooth, Sim/FiniteDiff. Status: proved. c121_operation, c121_noise, c121_numeric. Exact derivatives ('frechet', no approximation); contracts of expm and expm_frechet as everywhere; rounding of floating point numbers, which dominates for tiny delta_eps, is not modelled.
* **C122 Accuracy of the approximate derivative methods** — Verif/Cost/MethodError.lean: the derivative as the integral of exp(x A) D exp((1-x) A) over x; Taylor's bounds follow from exp being unitary along the segment; the gradient through the same sums as C98.
  Modules: Cost/MethodError. Status: proved. c122_dexp, c122_gradient. Contracts of np.linalg.eig and scipy expm; pairwise different eigenvalues are required because dexp obtains the exponential for these methods from exp with the default method, np.linalg.eig, whose eigenvectors are only known to be invertible then. Rounding, which limits 'approx' in practice, is not modelled.
* **C123 Infidelities of sequences of gates** — Verif/Sim/Sequence.lean: the operators as unit vectors for the Hilbert-Schmidt product, the infidelity as squared sine of the angle between lines, triangle inequality for the sine; the product of the operators from C115.
  Modules: Sim/Sequence. Status: proved. c123_sequence, c123_repeated, c123_not_hidden. Exponential methods 'Frechet' (expm) and 'spectral' with is_skew_hermitian=True; the solver has identity transfer and amplitude functions and starts with the identity.
* **C124 How much dissipation can change the infidelity** — Verif/Cost/Dissipation.lean: Groenwall's inequality for the evolution in the rotating frame of the Hamiltonian, accumulation over the steps, norm of the dissipation super operators by contractivity of star homomorphisms, and the fidelity as functional of norm at most one on super operators (also with a subspace); the closed system by C40 and C46.
  Modules: Cost/Dissipation. Status: proved. c124_dissipation, c124_weak, c124_attained. Exponential method 'Frechet' (expm); both solvers start with the identity; super_operator_function not used.
* **C125 What no pulse can reach** — Verif/Sim/Limits.lean: the final propagator is the product of the exponentials of the step Hamiltonians; (a) from the triangle inequality of the infidelity of C123, the freedom of the global phase, and a Lipschitz bound of the exponential on skew Hermitian matrices; (b) from the distance of the target to the complex multiples of the propagator, which is d times the infidelity.
  Modules: Sim/Limits. Status: proved. c125_speed_limit, c125_conserved, c125_unreachable. The conservation law is stated on the whole space (no computational states). The example with a qubit whose only control shifts the energy of its levels shows that (b) is sharp: infidelity one for the target X.
* **C126 Noise infidelities with and without systematic errors** — Verif/Cost/Systematic.lean: constructors with their options; triangle inequality of the distances of unitaries up to a phase (C123) and Minkowski's inequality for the mean over the traces.
  Modules: Cost/Systematic. Status: partial. c126_triangle, c126_quiet, c126_no_target, c126_measure. Violated: on a subspace without map_to_closest_unitary the leakage of the noiseless evolution remains, 1 - (1 - L)^2 without noise (c126_violated_leakage); StateNoiseInfidelity cannot be created without a target (c126_violated_state); OperationNoiseInfidelity.grad does not check the measure (c126_violated_measure).
* **C127 Open systems with normal Lindblad operators only mix** — Verif/Solver/Unital.lean: Re tr(X† master(X)) <= 0 for normal Lindblad operators, hence the norm decreases along the exponential; the identity is in the kernel of the generator.
  Modules: Solver/Unital. Status: proved. c127_mixing. Beside it: decay (not normal) makes the totally mixed state purer.
* **C128 Pulses of an open system compose** — Verif/Solver/OpenCompose.lean: the solver run on a list of steps is the product of the exponentials of the generators of the steps (openRun_ok); list algebra and exp((a+b)G) = exp(aG) exp(bG).
  Modules: Solver/OpenCompose. Status: proved. c128_concat, c128_product, c128_refine, c128_split, c128_zero_step.
* **C129 Subsystems which do not interact** — Verif/Sim/Subsystems.lean: exp(A x 1 + 1 x B) = exp A x exp B; products of Kronecker products; the gradient entries are derivatives (C44), hence obey the product rule.
  Modules: Sim/Subsystems. Status: proved. c129_forward, c129_gates, c129_gradient.
* **C130 A solver keeps the pulse it was given** — Solver/Alias: the arrays of the caller, links from the attributes to them; invariant over programs; concrete counterexample.
  Modules: Solver/Alias. Status: partial. Holds if the transfer or the amplitude function returns a new array (c130_own_partial), and for the default functions as long as the array holds the pulse whenever a result is read (c130_shared_partial). The default functions return their argument, so that the control amplitudes are the array of the caller: overwriting it changes the results, and setting the pulse again does not repair them (c130_violated).
* **C131 Without a pulse there are no costs** — Sim/NoPulse: set_optimization_parameters(None) added to the simulator of C102; histories mixing calls with and without a pulse.
  Modules: Sim/NoPulse. Status: partial. New solvers raise at every call without a pulse (c131_new_partial); the first call without a pulse after one with a pulse raises AttributeError (c131_first_partial); later calls with a pulse are not disturbed, unless they raised before as in C102 (c131_harmless_partial). From the second call without a pulse on, the costs of the last pulse are returned, for every history (c131_violated_repeat, concrete witness c131_violated). Transfer and amplitude functions are the defaults.
* **C132 UnaryAnalyticAmpFunc applies its function to every entry** — Sim/Vectorize: np.vectorize with the conversion to the data type of the first value; numbers of the types bool, int, float, complex.
  Modules: Sim/Vectorize. Status: partial. c132_iff: the amplitudes are right exactly if all values fit the data type of the first one, for every function and every pulse with entries; c132_values_partial and c132_gradient_partial for functions whose values are not of a wider type than the first. Violated by the rectifier 0 if x < 0 else x (c132_violated, c132_violated_first), for gradients (c132_violated_gradient) and for pulses without entries (c132_violated_empty).
* **C133 Results of optimisation runs** — Optim/Run: the algorithms of scipy are trees of questions (cost, Jacobian) and answers; both run_optimization methods execute them with the wrappers of Optim/Model, Optim/Scalar; contracts MinHonest, MinDescends, LsqHonest, LsqDescends.
  Modules: Optim/Run. Status: partial. c133_scalar and c133_least_squares: final pulse, costs, labels and descent for all algorithms with these two contracts; after a time-out without weights for algorithms which start at the initial pulse (c133_timeout_scalar_partial, c133_timeout_least_squares_partial). Violated: init_parameters is None in every result (c133_violated_initial).
* **C134 Termination conditions and flags reach the algorithm** — Optim/Run: arguments of the calls of least_squares and minimize; Alg.Within bounds the number of questions of an algorithm.
  Modules: Optim/Run. Status: partial. c134_wall_time (all methods), c134_evaluations (LeastSquaresOptimizer: max_iterations bounds the evaluations), c134_iterations_partial and c134_store_partial (L-BFGS-B, Nelder-Mead), c134_no_jacobian, c134_jacobian_partial (Jacobians are evaluated if they are to be used: L-BFGS-B and least squares). Violated: c134_violated_conditions and c134_violated_store (all other methods), c134_violated_jacobian (all methods but L-BFGS-B), c134_violated_calls (max_cost_func_calls has no effect at all).
* **C135 Bounds of the pulse** — Optim/Run: leastSquares with its checks of the bounds; bounds are extended real numbers.
  Modules: Optim/Run. Status: partial. c135_scalar (pairs), c135_least_squares_partial (lower bounds first) and c135_initial. Violated for LeastSquaresOptimizer: the default bounds=None raises a TypeError (c135_violated_none), and the documented order, the upper bounds first, raises a ValueError (c135_violated_order), both before the first evaluation. Trusted: the checks of least_squares as in the published source of scipy.
* **C136 Continuous controls and the time grid** — Cost/Continuous: Evolves is the Schroedinger equation with right derivatives (no numerical integrator involved); the solver is the one of Solver/Model with the cache; bounds in the operator norm. Cost/Existence: solutions for continuous controls by Picard-Lindelöf on short intervals, glued together; uniform continuity of the controls on the whole interval gives the convergence of all fine grids.
  Modules: Cost/Existence, Cost/Continuous, Cost/Master, Cost/Uniqueness. Status: proved. c136_deviation: error at most the sum of step length times deviation of the controls weighted with the operator norms; c136_stepped (exact), c136_lipschitz (first order), c136_midpoint (second order), c136_unique (uniqueness), c136_solution and c136_converges (existence and convergence for continuous controls), for the method Frechet with the contract of expm.
* **C137 Labelled curves of plot_costs** — Data/Plot: record evaluates pulses with the simulator of Sim/Model, plotCosts zips columns and labels; table of the default labels.
  Modules: Data/Plot. Status: partial. c137_curves if every cost function returns as many values as it has labels; c137_default_partial: this holds for the default labels of exactly the classes other than filter functions with several noise operators. Violated (c137_violated): default label of OperatorFilterFunctionInfidelity with two or more noise operators.
* **C138 The Lindblad solver solves the master equation** — Cost/Master: Solves is the master equation with right derivatives; exp((b-s)G) vec rho(s) has derivative zero (uniqueness), the pieces exp((s-a)G) are glued (existence).
  Modules: Cost/Master. Status: proved. c138_master: states at all grid times agree with every solution; c138_exists: a solution exists for every initial state. Method expm with the contract of scipy, zero or positive durations.
* **C139 Sampled controls and rates of an open system** — Cost/OpenSampled: observables evolve by the dual of a completely positive trace preserving map (Kraus operators, C96) whose norm is at most one; duhamel comparison on each step and induction over the steps. Cost/OpenExistence: solutions of the linear equation by Picard-Lindelöf; the density matrices are a closed set preserved by the evolution with each fixed generator, so the distance of the solution from it satisfies a Grönwall inequality and remains zero.
  Modules: Cost/OpenExistence, Cost/OpenSampled, Cost/Uniqueness. Status: proved. c139_deviation for time dependent Hamiltonians and rates at all grid times; c139_lipschitz for constant rates and Lipschitz controls; c139_solution, c139_unique and c139_converges: existence, uniqueness and convergence for continuous controls and rates. Method expm with the contract of scipy; rates used by the solver non-negative.
* **C140 The best of several runs** — Data/Best: the reports of Optim/Run stored one after another and compared by nLeast; FirstBest is stated with the simulator and the final pulses only.
  Modules: Data/Best. Status: partial. c140_least_squares_partial and c140_scalar_partial without runs ended by the time limit, c140_limited_partial with such runs for the LeastSquaresOptimizer without weights. Violated (c140_violated): a finished and an interrupted run of a ScalarMinimizingOptimizer cannot be compared.
* **C141 The gradient of OperatorMatrixNorm** — Cost/NormGrad: normGrad on top of Cost/MatrixNorm with the broadcasting rules of numpy for the shapes.
  Modules: Cost/NormGrad. Status: partial. c141_modes_partial: the other modes. Violated: NotImplementedError for durations which are an array, as every solver stores them (c141_violated_array); ValueError for a list of durations and two or more levels (c141_violated_list); for one level the returned derivative is not that of the costs (c141_violated_single).
* **C142 Affine amplitude functions are a choice of control Hamiltonians** — Sim/Mixing: the simulator of Sim/Model on solvers of Solver; equality of Hamiltonians step by step, gradients by uniqueness of the derivative (C93).
  Modules: Sim/Mixing. Status: proved. c142_forward, c142_costs, c142_gradient.
* **C143 The Gaussian filter** — Transfer/GaussianMtf: the object with its optional attributes; erf as in Noise/Erf, telescoping sums; integrals of the normal density as specification.
  Modules: Transfer/GaussianMtf. Status: partial. The class cannot be used: evaluating a pulse raises AttributeError after any sequence of calls (c143_violated), the default bound type rejects all times (c143_violated_default), steps of different durations are accepted (c143_violated_unequal), gradient_chain_rule contracts the wrong axis (c143_violated_gradient). With the missing attribute set by hand the values are those of the filtered signal and stay in range (c143_filter_partial, c143_range_partial), but taken at the durations instead of the times: all equal for steps of equal duration (c143_violated_equal); the matrix is kept when other times are set (c143_violated_stale); c143_spacing_partial says which numbers set_times rejects.
* **C144 Levels left out of the simulation** — Sim/Truncation.lean: the embedding of the subspace intertwines the Hamiltonians, hence their exponentials (power series) and all propagators. The gradients agree because the costs agree for all pulses (jac_unique). The bounds compare with the Hamiltonians without the coupling (exp_lip) and use the triangle inequality of C123 for the square roots of infidelities.
  Modules: Sim/Truncation. Status: proved. Closed system. c144_forward / c144_states: propagators of operators and of kets at all times. c144_costs / c144_gradient: the numbers handed to the optimiser, any number of solvers and cost functions. c144_leakage: cost and gradient zero. c144_error: the bounds with coupling (operator norms).
* **C145 Inexact Hamiltonians and crosstalk** — Sim/Crosstalk.lean: step by step with the Lipschitz bound of the exponential of skew-Hermitian matrices (exp_lip); the square root of the gate infidelity obeys the triangle inequality (C123), that of the state infidelity is the distance of the state from the line of the target.
  Modules: Sim/Crosstalk. Status: proved. Closed system, operator norms. c145_propagators: all times. c145_gates / c145_states: the infidelities, also on a subspace (map_to_closest_unitary only without subspace). c145_crosstalk: two interacting subsystems, compared with the product formula of C129.
* **C146 plot_pulse shows the pulse** — Transfer/PlotPulse: plt.bar as a list of rectangles with broadcasting; sums of prefixes of the grid.
  Modules: Transfer/PlotPulse. Status: partial. c146_edges describes everything drawn for all durations: one figure per control, right heights and right edges, but widths of the first step. With equal time steps the plot is right (c146_equal_partial, and c146_oversampling_partial without assumption on the call). Violated: with different durations the rectangles leave gaps or overlap (c146_violated_unequal), for ConcatenateTF the raw pulse is drawn without its padding (c146_violated_concat), only the last figure is labelled (c146_violated_labels).
* **C147 Equivalent descriptions of the dissipation** — Cost/Gauge: sesquilinear form of the dissipator, super operators determined by their action on matrices.
  Modules: Cost/Gauge. Status: proved. c147_mixing, c147_scale, c147_shift, c147_order, c147_super. (a) and (c) without prefactor function (all rates one), as the number of operators changes or the Hamiltonian would depend on the pulse otherwise. No contract of the numerical routines is needed: the generators and directions handed to them are equal.
* **C148 Open subsystems which do not interact** — Cost/OpenSubsystems: super operators of the pair regrouped by subsystem (both), exponential of commuting sums, traces of super operators which commute with the adjoint are real (Flips), gradient by uniqueness of the derivative.
  Modules: Cost/OpenSubsystems. Status: proved. c148_product_states, c148_marginal, c148_marginal_second, c148_gates, c148_gradient. Dissipation by Lindblad operators, with or without prefactor function of the amplitudes and transferred parameters of the same time step; scipy.linalg.expm (and expm_frechet for the gradient) exact. The reduced states require the other subsystem to have Hermitian Hamiltonians and the identity as initial operator; the gradient requires the supplied derivatives of the prefactors to be right.
* **C149 Units, basis and zero of energy of open systems** — Cost/OpenCovariance: the generator of each step is transformed by the super operator of the basis change; gradient by uniqueness of the derivative.
  Modules: Cost/OpenCovariance. Status: proved. c149_forward, c149_states, c149_costs, c149_gradient. Dissipation by Lindblad operators, with or without prefactor function of the amplitudes and transferred parameters of the same time step; scipy.linalg.expm (and expm_frechet for the gradient) exact. Whole space (no computational_states).
* **C150 A gate of an open system of small infidelity is good for every initial state** — Cost/OpenWorst: Kraus form of the final super operator (C96); the squared mean of diagonal entries is at most the mean square; distance of a block from multiples of the target for the leakage.
  Modules: Cost/OpenWorst. Status: proved. c150_basis, c150_state, c150_leakage. Initial operator the identity; scipy.linalg.expm exact. The state infidelity is stated for the density matrix computed by the forward propagator (the class StateInfidelity itself is for kets).
* **C151 Infidelities of sequences of gates of open systems** — Cost/OpenSequence: Kraus operators of both gates, the triangle inequality for angles (C123) in the space of families of matrices, with the best normalised combination of the Kraus operators.
  Modules: Cost/OpenSequence. Status: proved. c151_sequence, c151_repeated, c151_not_hidden; c151_repaired is the witness that the order matters. Prefactor function computed for each time step from the values of this step; scipy.linalg.expm exact.
* **C152 Inexact Hamiltonians, amplitudes and rates of open systems** — Cost/OpenSensitivity: derivative of exp((T-s)K) exp(sG) between two physical operations; the overlaps of all Kraus operators with the target form a vector which is linear in the perturbation and bounded by its norm; telescoping over the time steps.
  Modules: Cost/OpenSensitivity. Status: proved. c152_infidelity, c152_observables, c152_amplitudes (constant rates), c152_dissipation, c152_crosstalk. Initial operator the identity; scipy.linalg.expm exact.
* **C153 What no pulse can reach in an open system** — Cost/OpenLimits: determinant of an exponential, so that the determinant of the final super operator depends on the dissipation only; the eigenvalues of a physical operation are at most 1 in modulus, which bounds the trace by the determinant.
  Modules: Cost/OpenLimits. Status: proved. c153_limit, c153_all_pulses, c153_imperfect, c153_spread, c153_sharp, c153_subspace. Initial operator the identity; scipy.linalg.expm exact.
* **C154 Noise infidelities of sequences of gates** — Sim/NoiseSequence: trace by trace a pulse with noise is a pulse without noise for another drift (C94), so that the operations of the traces multiply (C115) and the triangle inequality of C123 holds in every trace; Minkowski for the mean over the traces.
  Modules: Sim/NoiseSequence. Status: proved. c154_sequence, c154_repeated, c154_not_hidden, c154_neglect, c154_idle, c154_attained, c154_refocused. Initial operator the identity, amplitude and transfer function the identity; map_to_closest_unitary off or no computational subspace; either exponential method.
* **C155 Leakage of sequences of gates** — Sim/LeakSequence: the leakage is the squared norm of the part outside of the subspace; what is outside after two operations was outside after the first or has left in the second; Minkowski for the mean over the traces.
  Modules: Sim/LeakSequence. Status: proved. c155_sequence, c155_repeated, c155_not_hidden, c155_noise, c155_rotations, c155_attained. Initial operator the identity, amplitude and transfer function the identity; either exponential method.
* **C156 State preparation: sequences, gates on prepared states, and what no pulse can prepare** — Sim/Preparation: the infidelity is the squared sine of the angle between the state and the goal embedded in the full space, which satisfies the triangle inequality and is invariant under unitaries; the difference of two means is half of the mixed terms of sum and difference of the kets with a suitable phase.
  Modules: Sim/Preparation. Status: proved. c156_sequence, c156_not_hidden, c156_gate, c156_speed_limit, c156_conserved, c156_attained, c156_conserved_attained. Amplitude and transfer function the identity; either exponential method; the gate on a solver with initial operator the identity.
* **C157 How much noise matters: gates, leakage and states** — Sim/NoisyPreparation: the propagators with and without noise differ by at most the strength of the trace in the operator norm; each square root is the distance to a line or subspace, and root mean squares satisfy the triangle inequality. Waiting under noise with sin^2 against the square of the angle for the last part.
  Modules: Sim/NoisyPreparation. Status: proved. c157_gate, c157_leakage, c157_state, c157_neglect, c157_sequence, c157_gate_on_state, c157_attained. Amplitude and transfer function the identity; either exponential method; solver of the gates with initial operator the identity; one process, or several without derivatives.
* **C158 Pulses played backwards perform the transposed operation** — Verif/Sim/Mirror.lean: the mirrored configuration is written down as specification; the products of exponentials are transposed term by term, the gradient follows from uniqueness of the derivative (C44).
  Modules: Sim/Mirror. Status: proved. Solvers with identity transfer and amplitude function (`SPar.bare`); other transfer functions act before the amplitudes considered here.
* **C159 The noise costs of states and of leakage are unbiased estimates of the average over the noise** — Verif/Sim/EstimatorState.lean: the costs are written as means over the traces of `traceStateInfidelity` and `traceLeakage` (C94 for the traces), which are continuous functions of the noise with values between zero and one; mean, variance and Hoeffding's bound as for C111.
  Modules: Sim/EstimatorState. Status: proved. Random numbers as an idealised source (`WhiteNoise`: independent standard normal variables).
* **C160 Conserved quantities: what a pulse cannot change, and why the optimizer does not notice** — Verif/Sim/Conserved.lean: the exponential of a generator commutes with what the generator commutes with, induction over the time steps; a trace argument gives zero overlap; costs which are the same for all pulses have zero derivatives, and the returned gradients are the derivatives (C44, C51); for the Lindblad solver the functional tr(Q .) annihilates the generator, hence is invariant under its exponential.
  Modules: Sim/Conserved. Status: proved. Lower bounds for targets which only partly violate a conservation law are C125 and C156.
* **C161 Equivalent descriptions of the noise** — Verif/Sim/NoiseDescriptions.lean: the generators with noise are those of a solver whose drift contains the sum (C94), and nothing else of the noise enters the run; costs are means over the traces of functions of the final operator of the trace, which is rewritten up to a phase; gradients are the derivatives of the costs (C93), which are unique.
  Modules: Sim/NoiseDescriptions. Status: proved. The same for solvers without noise is C104, for dissipation C147 and C149.
* **C162 Noisy pulses played backwards** — Verif/Sim/MirrorNoise.lean: the final operator of each trace is the transpose; costs are means over the traces; gradients are the derivatives of the costs (C93), which are unique.
  Modules: Sim/MirrorNoise. Status: proved. The same without noise is C158.
* **C163 Levels left out of a simulation with noise** — Verif/Sim/TruncationNoise.lean: the step propagators with noise intertwine with the inclusion of the subspace, so the final operator of the small system is the truncated one in every trace; gradients are the derivatives of the costs (C93), which are unique.
  Modules: Sim/TruncationNoise. Status: proved. The same without noise, and the effect of weak coupling to the other levels, is C144.
* **C164 Noise of subsystems that do not interact** — Verif/Sim/SubsystemsNoise.lean: the step propagators with noise are Kronecker products in every trace, so the infidelities c of the pair in each trace satisfy 1 - c = (1 - c₁)(1 - c₂) and lie in [0, 1]; gradients are the derivatives of the costs (C93), which are unique.
  Modules: Sim/SubsystemsNoise. Status: proved. The same without noise is C129. If both subsystems are noisy, the average is taken over the products of the fidelities, and only the bounds are proved.
* **C165 Inexact models of systems with noise** — Verif/Sim/NoiseModels.lean: the evolutions of the two models in one trace differ by at most d in operator norm; the square root of the infidelity, a distance to the target, changes at most as much; the triangle inequality for root mean squares.
  Modules: Sim/NoiseModels. Status: proved. The same without noise is C145; the comparison with the costs without noise is C157.
* **C166 Noise which no pulse can reduce** — Verif/Sim/CommutingNoise.lean: the evolution factors into that of the noise and that of the pulse (induction over the time steps); the pulse cancels in the fidelity; the gradient, the derivative of a constant function, is zero.
  Modules: Sim/CommutingNoise. Status: proved. 
* **C167 The spectral method in open systems** — Verif/Cost/SpectralOpen.lean: for the decaying qubit the eigenvectors of the generator are computed for every result of eig; the ground state, which solves the master equation without changing, is mapped to a state whose excited population is at most -exp(-t)/2. For normal generators C20 gives the exponential, and C138 applies.
  Modules: Cost/SpectralOpen. Status: partial. c167_violated: the code returns states with negative probabilities for a decaying qubit; c167_normal_partial: correct if the generators are normal and have no repeated eigenvalues. Repeated eigenvalues of a normal generator depend on the basis chosen by eig.
* **C168 Gradients with the spectral method** — Verif/Cost/SpectralGradient.lean: what the gradient reads from the solver is determined for the spectral method; for the three level system every result of eigh with ascending eigenvalues gives the same wrong derivative 2(E01-E10) of the propagator, the true one is 0 by the corrected formula of C21. The partial theorem combines c21_derivative_partial with c44_gradient.
  Modules: Cost/SpectralGradient. Status: partial. c168_violated: for a three level system the infidelity is stationary but the gradient is -352/225; c168_partial: correct at pulses where eigh returns Hermitian eigenvector matrices. Missing: other eigenvector matrices, for which the code is wrong.
* **C169 The time grid of simulations with noise** — Verif/Sim/RefinedNoise.lean: the exponentials of the parts of a step multiply to that of the step, so the final operators of all traces agree; the costs are functions of these. The gradients are total derivatives (C93), the chain rule for repeated amplitudes gives the sum; that solvers with any transfer function have the gradient of the solver with the amplitudes as parameters is proved function by function.
  Modules: Sim/RefinedNoise. Status: proved. every number of parts (the same for every step), parts of different durations; the gradient is proved for processes=1, exact derivatives and the default exponential method.
* **C170 The time grid of open systems and the gradient** — Verif/Sim/RefinedOpen.lean: the exponentials of the parts of a step multiply to that of the step, the final super operators agree; the gradients are total derivatives (C98), the chain rule for repeated amplitudes (RefinedNoise.lean) gives the sum.
  Modules: Sim/RefinedOpen. Status: proved. parts of different durations, the same number of parts for every step; the default exponential method without approximate derivatives.
* **C171 Noise amplitude functions** — Verif/Sim/NoiseAmplitudes.lean: the function enters only through the array it returns, so the solver agrees with the one that is given this array; C34 and C161 for the latter.
  Modules: Sim/NoiseAmplitudes. Status: proved. that the gradient neglects the dependence of the noise on the pulse is C95.
* **C172 Affine amplitude functions in simulations with noise** — Verif/Sim/MixingNoise.lean: the Hamiltonian of every step is the same, hence the final operators of all traces; for the gradient the chain rule and the uniqueness of the derivative, C93.
  Modules: Sim/MixingNoise. Status: proved. the gradient is proved for processes=1, exact derivatives and the default exponential method; without noise C142.
* **C173 Affine amplitude functions in open systems** — Verif/Sim/MixingOpen.lean: the generator of every step is the same, hence the propagators; for the gradient the chain rule and the uniqueness of the derivative, C98.
  Modules: Sim/MixingOpen. Status: proved. the default exponential method; without dissipation C142, with noise C172.
* **C174 Conjugated systems and inverse pulses** — Verif/Sim/Conjugation.lean: the exponential of the conjugate is the conjugate of the exponential, hence every step and product; the gradients by the uniqueness of the derivative; the inverse pulse is the conjugate of the pulse played backwards, C158.
  Modules: Sim/Conjugation. Status: proved. map_to_closest_unitary only without computational states; the gradients with the default exponential method; transposed Hamiltonians C158.
* **C175 Conjugated open systems** — Verif/Sim/ConjugationOpen.lean: the generator of every step is conjugated, for each way to give the dissipation, hence the propagators; the gradient by the uniqueness of the derivative, C98.
  Modules: Sim/ConjugationOpen. Status: proved. the default exponential method; without dissipation C174.
* **C176 Conjugated systems with noise** — Verif/Sim/ConjugationNoise.lean: every step with noise is conjugated, hence the final operators of all traces; the gradient by the uniqueness of the derivative, C93.
  Modules: Sim/ConjugationNoise. Status: proved. map_to_closest_unitary only without computational states; the default exponential method; without noise C174.
* **C177 Inverse pulses with noise** — Verif/Sim/InverseNoise.lean: the inverse is the conjugate of the transpose, C162 and C176; without drift the signs of the amplitudes and samples move to the Hamiltonians.
  Modules: Sim/InverseNoise. Status: proved. map_to_closest_unitary only without computational states; states without computational states; the default exponential method; without noise C174.
* **C178 Operations out of reach with noise and dissipation** — Verif/Sim/ConservedOpen.lean: multiplication with V from the left commutes with the generator of every step, hence the trace of the overlap is a multiple of itself (C160); the gradient by C98 and C93.
  Modules: Sim/ConservedOpen. Status: proved. Extends C160 (closed systems and the value of the noise infidelity). Systematic errors not neglected; map_to_closest_unitary only without computational states; the default exponential method.
* **C179 Leakage of open systems for every initial state and for sequences of pulses** — Verif/Cost/OpenLeak.lean: Kraus operators (C96); a density matrix of the subspace is at most the projector, and positive maps preserve the order; for sequences rho <= (1+t) P rho P + (1+1/t) Q rho Q for every t > 0, optimised over t.
  Modules: Cost/OpenLeak. Status: proved. The closed system is C155. The default exponential method; the prefactor function acts on each time step separately (as in C128, C151).
* **C180 Levels left out of the simulation of an open system** — Verif/Sim/TruncationOpen.lean: the embedding of the subspace intertwines the generators of every step, hence the propagators; the trace of the overlap by the isometry of the embedding; the gradient with C98 as derivative of the same function; the leakage with the Kraus operators of C96 and C179.
  Modules: Sim/TruncationOpen. Status: proved. The closed system is C144, the system with noise C163. Both solvers start with the identity; the default exponential method; the prefactor function acts on each time step separately (as in C128).
* **C181 What dissipation has destroyed no pulse brings back** — Verif/Cost/OpenForget.lean: with the Kraus operators (C96) a measurement after the pulse is a measurement before it; the errors by the projector on one of the orthogonal states.
  Modules: Cost/OpenForget. Status: proved. C127 states the corresponding fact for the Hilbert-Schmidt distance and normal Lindblad operators only. The default exponential method; the prefactor function acts on each time step separately (as in C128).

## Where the code disagrees with a property

Each item is proved (theorems `cNN_violated...`).

* **C10** `MatrixTF` never invalidates its cached transfer matrix: after `set_times` a used object raises, or silently maps the pulse with the old matrix (if the old grid had one step, `einsum` repeats the single column and adds up all rows of the pulse).
* **C11** `_calculate_transfer_matrix` of a `ConcatenateMTF` leaves `_transfer_matrix` None: every call raises ValueError.
* **C12** `ParallelMTF` drops both offsets; `ConcatenateMTF` adds the offsets without sending the first through the second matrix.
* **C13** the gradient of `ConvolutionTF` convolves with the unflipped kernel and always with border mode 'reflect'; the Gaussian filter with 'nearest' borders is not self adjoint.
* **C18** `ptrace` with an empty set or with all subsystems raises TypeError; a 1x1 operator is squared like a ket.
* **C20** spectral exponential uses the adjoint instead of the inverse of the eigenvector matrix: wrong for every diagonalisable matrix that is not normal.
* **C21** spectral derivative changes the basis in the reversed direction; repeated eigenvalues give 0/0.
* **C23** `dexp` with a Taylor or approx method returns as propagator the default spectral exponential.
* **C26** (documented in the theorem statements) map_to_closest_unitary on a bra raises, on a ket does nothing.
* **C29** `grape` with calculate_propagator_derivatives=True, and Taylor methods with False: results depend on the order in which properties were read.
* **C30** a pulse rejected by validation is accepted without validation when set a second time, and older results are reported for it.
* **C31** the same pulse after `set_times` is not recomputed; a single drift operator is repeated only for the grid of construction, a longer grid raises IndexError.
* **C32** `grape` derivatives are indexed [time][control].
* **C36** noise traces shorter than the pulse are accepted; the remaining steps are propagated without noise.
* **C41** the doc string of the prefactor derivative has another axis order than the code; for non-Hermitian controls the direction (Hᵀ) is not the derivative of the generator (conj H).
* **C42** the first constant dissipation super operator of the caller accumulates the other ones in place.
* **C45, C48** `grad()` does not pass map_to_closest_unitary on.
* **C52** removing no or all subsystems raises TypeError. An expectation value with an imaginary part above 1e-5 is meant to give a warning and the absolute value; the code indexes a number and raises IndexError.
* **C53** `angle_axis_representation` accepts non-unitary matrices (entry [1,1] of u u† is never tested).
* **C55** the Simulator chain rule is wrong for custom amplitude functions that mix time steps.
* **C58** the pulse setter does not reach the solvers, stores the shape of the previous pulse, raises AttributeError for the first pulse.
* **C60, C61** weights are multiplied into the recorded arrays; the remembered minimum mixes weighted and unweighted costs; a reused argument vector changes the record.
* **C62** all optimizers share one default dictionary of termination conditions; the annealer removes the time limit of all.
* **C63** the best parameters are reshaped twice before the final Jacobian; a time-out before the first evaluation raises AttributeError.
* **C65** integer pulses with non-integer bounds leave the bounds by truncation.
* **C68** the dictionary round trip loses `status`.
* **C69** forked workers share the state of the global random generator: equal samples in different runs.
* **C70** one run without recorded steps makes `absolute_costs` raise.
* **C73** for two or more operators the corrected standard deviation is strictly too small; one trace per operator gives no noise at all.
* **C74** the correction mutates the list of the caller, also if the constructor raises.
* **C75** the one-dimensional bell curve integrates to 1/√(2π).
* **C76** `r_power_of_two` rounds up.
* **C78** after a failed computation the cached list of None is returned.
* **C79** an empty drift list is accepted and then unusable.
* **C81** `__deepcopy__` lacks the memo parameter: `copy.deepcopy` raises TypeError.
* **C82** for odd lengths the density is evaluated at k/((n−1)dt) instead of k/(n dt).
* **C84** `CustomMTF`: explicit `x_times` make the object unusable; the second `set_times` stores the raw durations as `x_times`; padded matrices of the wrong size and grids of the wrong length are accepted.
* **C85** evaluating the simulator after an optimization appends to the statistics stored in its result; the analyser's time share of the cost function can exceed one.
* **C86** after an exceeded wall time the least-squares optimizer records the Jacobian of the result after the end time, so time shares can exceed one; with `numeric_jacobian` the gradient times are recorded as cost times.
* **C87** the Monte Carlo solvers' `create_ff_h_n` fills no noise identifiers and calls `filter_function_h_n` with one argument instead of the documented three (TypeError); the filter-function cost function keeps the default frequencies of the first pulse sequence after the time grid has changed; `ff_basis` given once is kept.
* **C88** `derivative_entanglement_fidelity` multiplies every entry by the whole list `delta_t` instead of the duration of the step: TypeError for a list and ValueError for an array with two or more entries.
* **C89** `OperatorMatrixNorm.__init__` calls `super().__init__()` without the required solver, so the class can never be instantiated; its phase correction assumes a positive first target entry.
* **C90** with `numeric_jacobian=True`, `compare_numeric_to_analytic_gradient` compares the finite differences with themselves and always reports agreement.
* **C91** `dexp(method='approx')` subtracts `self.exp(tau)` (the spectral method with default arguments) from scipy's `expm`, so its entries diverge as epsilon tends to zero for non-normal matrices; `exp` raises ValueError for unknown methods although NotImplementedError is documented.
* **C95** `SchroedingerSMCControlNoise` (solver_algorithms.py:1517-1548): the noise amplitudes amp(x + noise) - amp(x) depend on the pulse, the propagator derivatives treat them as constants. The gradient is wrong for every amplitude function that is not affine.
* **C99** `LindbladSolver._compute_dyn_gen` (solver_algorithms.py:2062-2105) stores the d x d generators of the Schroedinger equation in `_dyn_gen` before the dissipation is calculated. If that raises (no dissipation given: TypeError), the second read of `propagators` succeeds and returns d x d propagators without dissipation; setting the same pulse again does not help. `reset_cached_propagators` (1866-1873) keeps the list of constant dissipators, whose length is the old number of steps, when `set_times` changes the grid: after a longer grid a shorter one can be propagated that a new solver rejects with AssertionError.
* **C100** `SchroedingerSMonteCarlo._compute_dyn_gen_noise` (solver_algorithms.py:1286-1293) assigns `_dyn_gen_noise` before adding the samples in place. If the generator delivers more samples than time steps (or traces), the first read raises IndexError and the second one succeeds with the samples added so far. `_compute_propagation` (1318-1333, 1358-1362) overwrites `_prop_noise` with lists of `None` before it finds out that derivatives are not implemented in parallel mode: after `frechet_deriv_propagators_noise` has raised NotImplementedError, `propagators_noise` returns `None`s although it was correct before.
* **C101** `SimulatedAnnealing.run_optimization` (optimize.py:850-875) reports a finished run with `termination_reason='not started yet'` and `status`, `num_iter`, `init_parameters` `None`; `final_cost` is the norm of the costs and not their values (6 and 8 are reported as 10, next to two labels); `WallTimeExceeded` is not caught, so that the best pulse is lost (and the limit of 1e8 s set by the constructor is overwritten by the next optimizer, C62).
* **C102** `Simulator.wrapped_cost_functions` (simulator.py:196-197) after a rejected pulse: `Solver.set_optimization_parameters` stores the pulse before the transfer function checks it, so that the same call made again does not raise and returns the costs of the pulse evaluated before (consequence of C30).
* **C105** `ExponentialMTF.reverse_state` raises AttributeError on every input (`self.xtimes`, `self.start_value` do not exist), and even with these attributes it ignores the padding at the start.
* **C106** `sample_2dim_gaussian_distribution` selects at most one sample per cell of a fixed grid with 10^8 visited cells; larger numbers of samples are silently not reached.
* **C107** `vector_color_map` documents eigenvectors as columns but assigns one colour to each row; `plot_energy_spectrum` uses it consistently with rows.
* **C108** `plot_bloch_vector_evolution` multiplies the initial state from the left only; for an initial density matrix the points are not those of `U rho U†` (the propagator -1 inverts the Bloch vector).
* **C109** `plot_periodogram(scaling='spectrum')` returns the norm of the difference of a power spectrum and a power spectral density; their expectations differ by the factor 1/(n dt). For odd trace lengths `fast_colored_noise` evaluates the density at k/((n-1) dt), so the variance and the expected periodogram are those of other frequencies.
* **C110** The constructor stores `ctrl_amps` without the shape checks of `set_optimization_parameters`; `zip` in `_compute_dyn_gen` then skips the missing time steps, which evolve with the drift only.
* **C116** C116 / cost_functions.py:1445-1452, solver_algorithms.py:965-976: OperationNoiseInfidelity.grad() with 'grape' and the default neglect_systematic_errors=True adds a table [control][time step] to a table [time step][control] and raises unless both numbers agree (`c116_violated_default`).
* **C126** With computational states and map_to_closest_unitary=False, OperationNoiseInfidelity(neglect_systematic_errors=True) compares with the truncated, not unitary evolution: without any noise it reports 1 - (1 - L)^2 with the leakage L. StateNoiseInfidelity reads the shape of the target before it handles target=None (AttributeError). OperationNoiseInfidelity.grad returns the gradient of the entanglement infidelity for fidelity measures that costs() rejects.
* **C130** `IdentityTF` and `IdentityAmpFunc`, the defaults, return the array they are given, so `_ctrl_amps` is the array of the caller while `_opt_pars` is a copy. Overwriting the array before the first read gives results of the changed pulse; handing over the original pulse again is skipped as unchanged and the wrong results remain.
* **C131** `set_optimization_parameters(None)` stores `np.copy(None)` before it raises, and `np.array_equal` of that with `None` is true: the second call without a pulse is skipped as unchanged, and the costs of the pulse before are returned.
* **C132** `np.vectorize` without `otypes` converts all values to the data type of the first: with `lambda x: 0 if x < 0 else x` the pulse (-1, 0.5) gives the amplitudes (0, 0), and the entry 0.5 is an amplitude of 0 or 0.5 depending on the sign of the first entry of the pulse.
* **C133** `init_parameters` is never passed to `OptimizationResult` and is None in every result; a run of a scalar optimizer which the time limit ends has an array of unweighted or weighted costs as `final_cost` instead of their sum.
* **C134** with a method other than L-BFGS-B and Nelder-Mead (BFGS, CG, ...) `ScalarMinimizingOptimizer` passes on none of the termination conditions, no Jacobian (although `use_jacobian_function` is true) and stores the optimizer although `store_optimizer` is False; `max_cost_func_calls` is read by no optimizer.
* **C135** `LeastSquaresOptimizer` passes its default `bounds=None` to `scipy.optimize.least_squares`, which cannot unpack it (TypeError), and documents the bounds as upper before lower, which scipy rejects (ValueError).
* **C137** `OperatorFilterFunctionInfidelity` has one default label but returns one value per noise operator; all labels of later cost functions are shifted in `plot_costs` (a curve labelled "Leakage Error" shows the infidelity of the second noise operator) and the last values are not drawn.
* **C140** `ScalarMinimizingOptimizer` reports a number as final cost of a finished run (optimize.py:559/592/616) but the array of the costs for a run ended by the time limit (optimize.py:349); `n_least_square` on a container with both raises a ValueError (an inhomogeneous array in numpy since 1.24; before, the comparison of arrays with several entries).
* **C141** `OperatorMatrixNorm.grad` cannot return a right result: it accepts a list of durations or a float only, while `Solver.set_times` stores an array; with a list the shapes do not fit for two or more levels (`final.flatten()` has no effect); for one level the propagator of the time step itself is missing in the derivative (`fwd_prop` is the one before the step). The class cannot be built anyway (C89).
* **C143** `GaussianMTF` (transfer_function.py:1615-1716) reads the attribute `xtimes`, which nothing sets: every evaluation raises AttributeError. Its default bound type is rejected by `set_times`, `over_sample_rate` is ignored, durations are used as points in time, and `gradient_chain_rule` sums over the controls and swallows the ValueError. With the attribute set by hand, a transfer matrix once computed is kept when other times are set, and pulses for the new times are answered with None.
* **C146** `plot_pulse` (transfer_function.py:471-480) draws every rectangle with the width of the first time step, so pulses with different durations are drawn with gaps or overlaps; `ConcatenateTF` has no bound type of its own, so the raw pulse is drawn at the start of the padding; the labels are set after the loop and reach the last figure only.
* **C80** `StateNoiseInfidelity.costs` with `neglect_systematic_errors=True` and `computational_states` compares with the truncated noiseless final state without normalising it (cost_functions.py:1151-1158): if that state is not in the subspace, the result does not vanish without noise, it is 1 - w^2 with w its weight in the subspace.
* **C167** A `LindbladSolver` with `exponential_method='spectral'` gives wrong states: `_exp_diagonalize` (matrix.py:972-1001) multiplies with the adjoint of the eigenvector matrix instead of its inverse. A qubit with decay (Lindblad operator |0><1|) that starts in its ground state has after the time t an excited population of at most -exp(-t)/2, for every duration and amplitude (`c167_violated`).
* **C168** `OperationInfidelity.grad` is wrong for a `SchroedingerSolver` with `exponential_method='spectral'`: the basis changes of `_dexp_diagonalization` (matrix.py:1054-1062) are the wrong way round (C21). For the drift -diag(2,0,1), a control coupling the levels 0 and 1 and the duration pi, the infidelity does not change in first order at amplitude 0, the gradient returned is -352/225 (`c168_violated`).
