import Verif.Transfer.RunLemmas
import Mathlib.Data.Real.Basic

/-!
# The simulator and the amplitude functions (simulator.py:60-390, amplitude_functions.py)

A pulse has `p` optimisation parameters per time step; a solver object turns it into `c` control amplitudes per
transferred time step.

Simplifications (also listed in DESIGN.md):
* the performance statistics (time stamps) are not modelled; the branches with and without statistics compute the same
  costs;
* a cost function sees its solver through the object `SolverObj` only (transfer function, amplitude function, current
  amplitudes); the propagators a cost function reads are functions of the amplitudes (properties C29-C31);
* the solver of every cost function is one of the simulator's solvers, given by its position;
* after an exception the state of the simulator is not modelled (C30 and C78 are about that).
-/

namespace Verif.Sim
open Verif Verif.Transfer

/-! ## Amplitude functions -/

/-- An amplitude function from `p` parameters to `c` amplitudes, amplitude_functions.py:123-220: identity
(`IdentityAmpFunc`), a scalar function applied to every entry with its derivative (`UnaryAnalyticAmpFunc`) and a function
of the whole array with a derivative array of shape `(time, par, ctrl)` (`CustomAmpFunc`).  The scalar functions return floats; for
functions returning numbers of different types see C132 (Sim/Vectorize.lean). -/
inductive AmpFunc : Nat → Nat → Type
  | identity {c : Nat} : AmpFunc c c
  | unary {c : Nat} (value derivative : ℝ → ℝ) : AmpFunc c c
  | custom {p c : Nat} (value : Pulse ℝ p → Pulse ℝ c) (derivative : Pulse ℝ p → List (Fin p → Fin c → ℝ)) : AmpFunc p c

/-- `__call__` of the amplitude functions. -/
def AmpFunc.call : {p c : Nat} → AmpFunc p c → Pulse ℝ p → Pulse ℝ c
  | _, _, .identity, x => x
  | _, _, .unary v _, x => x.map fun r k => v (r k)
  | _, _, .custom v _, x => v x

/-- `derivative_by_chain_rule`, with the contractions `'ij,ikj->ikj'` and `'imj,ikj->ikm'` over the time axis `i`.  Time axes
of different length raise ValueError (numpy's broadcasting of an axis of length one is not modelled). -/
def AmpFunc.chain : {p c f : Nat} → AmpFunc p c → Grads ℝ f c → Pulse ℝ p → Except PyErr (Grads ℝ f p)
  | _, _, _, .identity, g, _ => .ok g
  | _, _, _, .unary _ d, g, x =>
      if x.length = g.length then .ok (List.zipWith (fun r gr φ j => d (r j) * gr φ j) x g) else .error .valueError
  | _, _, _, .custom _ d, g, x =>
      if (d x).length = g.length then .ok (List.zipWith (fun dr gr φ m => ∑ j, dr m j * gr φ j) (d x) g)
      else .error .valueError

/-! ## Solver objects as the simulator sees them -/

/-- What the simulator uses of a solver object (solver_algorithms.py:126-230). -/
structure SolverObj (p : Nat) where
  /-- `len(h_ctrl)` -/
  c : Nat
  /-- `transfer_function` -/
  tf : TF ℝ p
  /-- `amplitude_function` -/
  amp : AmpFunc p c
  /-- `len(transferred_time)` -/
  nTimes : Nat
  /-- `_opt_pars` -/
  optPars : Option (Pulse ℝ p)
  /-- `_ctrl_amps` -/
  amps : Option (Pulse ℝ c)

open Classical in
/-- `Solver.set_optimization_parameters`, solver_algorithms.py:358-404. -/
noncomputable def SolverObj.setPars {p : Nat} (s : SolverObj p) (y : Pulse ℝ p) : Except PyErr (SolverObj p) :=
  if s.optPars = some y then .ok s
  else do
    let (tf', x) ← s.tf.call y
    if (s.amp.call x).length = s.nTimes then
      pure { s with tf := tf', optPars := some y, amps := some (s.amp.call x) }
    else .error .valueError

/-! ## Cost functions and the simulator -/

/-- What `grad()` returns: shape `(time, ctrl)` or `(time, func, ctrl)`. -/
inductive Jac (c : Nat) where
  | flat (g : List (Fin c → ℝ))
  | full (f : Nat) (g : Grads ℝ f c)

/-- `np.expand_dims(jac_u, axis=1)` for two-dimensional gradients, simulator.py:273-275. -/
def Jac.expand {c : Nat} : Jac c → Σ f, Grads ℝ f c
  | .flat g => ⟨1, g.map fun r _ => r⟩
  | .full f g => ⟨f, g⟩

/-- A cost function object (cost_functions.py:110-159): the position of its solver, its labels, and the two methods.  `costs`
is the array already flattened (`np.asarray(cost).flatten()`, simulator.py:211). -/
structure CostFn (p : Nat) where
  solver : Nat
  label : List String
  costs : SolverObj p → Except PyErr (List ℝ)
  grad : (s : SolverObj p) → Except PyErr (Jac s.c)

/-- The attributes of a simulator, simulator.py:115-137. -/
structure Sim (p : Nat) where
  solvers : List (SolverObj p)
  costFuncs : List (CostFn p)
  /-- `_optimization_parameteres` -/
  pulse : Option (Pulse ℝ p)
  /-- `_num_times`, `_num_ctrl` -/
  numTimes : Option Nat
  numCtrl : Option Nat
  numericJacobian : Bool

namespace Sim
variable {p : Nat}

/-- The loop over the solvers, simulator.py:196-197 and 258-259. -/
noncomputable def setSolvers : List (SolverObj p) → Pulse ℝ p → Except PyErr (List (SolverObj p))
  | [], _ => .ok []
  | s :: ss, y => do
    let s' ← s.setPars y
    let ss' ← setSolvers ss y
    pure (s' :: ss')

/-- `pulse = self.pulse if pulse is None`, simulator.py:193-194, 255-256.  Without any pulse the solvers get `None`;
here that raises AttributeError, as the first such call after a pulse does.  New solvers raise ValueError, and later calls may return
costs: C131 (Sim/NoPulse.lean). -/
def given (sim : Sim p) : Option (Pulse ℝ p) → Except PyErr (Pulse ℝ p)
  | some y => .ok y
  | none => match sim.pulse with
    | some y => .ok y
    | none => .error .attributeError

/-- `cost_func.solver`. -/
def solverOf (ss : List (SolverObj p)) (i : Nat) : Except PyErr (SolverObj p) :=
  match ss[i]? with
  | some s => .ok s
  | none => .error .attributeError

/-- The loop over the cost functions, simulator.py:203-211 and 223-226. -/
def costLoop (ss : List (SolverObj p)) : List (CostFn p) → Except PyErr (List (List ℝ))
  | [] => .ok []
  | F :: Fs => do
    let s ← solverOf ss F.solver
    let v ← F.costs s
    let rest ← costLoop ss Fs
    pure (v :: rest)

/-- `np.concatenate(costs, axis=0)`: ValueError for an empty list. -/
def concatenate0 {α : Type} : List (List α) → Except PyErr (List α)
  | [] => .error .valueError
  | l => .ok l.flatten

/-- `Simulator.wrapped_cost_functions`, simulator.py:171-235. -/
noncomputable def wrappedCosts (sim : Sim p) (pulse : Option (Pulse ℝ p)) : Except PyErr (Sim p × List ℝ) := do
  let y ← sim.given pulse
  let ss ← setSolvers sim.solvers y
  let vals ← costLoop ss sim.costFuncs
  let costs ← concatenate0 vals
  pure ({ sim with solvers := ss }, costs)

/-- `cost_indices`, simulator.py:163-169. -/
def costIndices (sim : Sim p) : List String := (sim.costFuncs.map CostFn.label).flatten

/-- The body of the loop of `wrapped_jac_function`, simulator.py:270-284: gradient by the amplitudes, extra axis, amplitude
function, transfer function.  The result has the axes `(time, func, par)`. -/
noncomputable def jacOf (F : CostFn p) (s : SolverObj p) (y : Pulse ℝ p) : Except PyErr (List (List (Fin p → ℝ))) := do
  let jac ← F.grad s
  let (tf', x) ← s.tf.call y
  let jacX ← s.amp.chain jac.expand.2 x
  let (_, jacY) ← tf'.grad jacX
  pure (jacY.map fun r => List.ofFn r)

/-- The loop over the cost functions, simulator.py:267-287.  (The object changes of the transfer functions are cache fills
that cannot be observed, see `call_same` and `grad_same`; they are dropped here.) -/
noncomputable def jacLoop (ss : List (SolverObj p)) (y : Pulse ℝ p) :
    List (CostFn p) → Except PyErr (List (List (List (Fin p → ℝ))))
  | [] => .ok []
  | F :: Fs => do
    let s ← solverOf ss F.solver
    let v ← jacOf F s y
    let rest ← jacLoop ss y Fs
    pure (v :: rest)

/-- `np.concatenate(jacobians, axis=1)`: ValueError for an empty list or different lengths on the time axis. -/
def concatenate1 {α : Type} : List (List (List α)) → Except PyErr (List (List α))
  | [] => .error .valueError
  | [a] => .ok a
  | a :: b :: l => do
    let r ← concatenate1 (b :: l)
    if a.length = r.length then pure (List.zipWith (· ++ ·) a r) else .error .valueError

/-! ### Finite differences -/

/-- `np.zeros_like(test_pulse)` with `delta[n_time, n_operator] = delta_eps` added to the pulse, simulator.py:375-377. -/
def plusDelta (y : Pulse ℝ p) (t : Nat) (j : Fin p) (ε : ℝ) : Pulse ℝ p :=
  List.zipWith (fun r d k => r k + d k) y
    ((List.range y.length).map fun i k => if i = t ∧ k = j then ε else 0)

/-- `test_pulse - delta`, simulator.py:379. -/
def minusDelta (y : Pulse ℝ p) (t : Nat) (j : Fin p) (ε : ℝ) : Pulse ℝ p :=
  List.zipWith (fun r d k => r k - d k) y
    ((List.range y.length).map fun i k => if i = t ∧ k = j then ε else 0)

/-- Subtracting two cost vectors and dividing; ValueError when the vectors (or the row of `gradients` they are stored in, of
`n` entries) have different lengths.  Simplification: numpy would broadcast a vector of a single cost; the number of costs of the cost
functions in the code does not depend on the pulse. -/
noncomputable def quotient (n : Nat) (a b : List ℝ) (d : ℝ) : Except PyErr (List ℝ) :=
  if a.length = n ∧ b.length = n then .ok (List.zipWith (fun x y => (x - y) / d) a b) else .error .valueError

/-- One pass of the double loop, simulator.py:374-385: the entries `gradients[n_time, :, n_operator]`. -/
noncomputable def numStep (sim : Sim p) (y : Pulse ℝ p) (central : List ℝ) (ε : ℝ) (symmetric : Bool) (t : Nat) (j : Fin p) :
    Except PyErr (Sim p × List ℝ) := do
  let (sim, fwd) ← sim.wrappedCosts (some (plusDelta y t j ε))
  match symmetric with
  | true =>
    let (sim, bck) ← sim.wrappedCosts (some (minusDelta y t j ε))
    let q ← quotient central.length fwd bck (2 * ε)
    pure (sim, q)
  | false =>
    let q ← quotient central.length fwd central ε
    pure (sim, q)

/-- The double loop over `(n_time, n_operator)` in the order of the code, collecting the computed columns. -/
noncomputable def numLoop (sim : Sim p) (y : Pulse ℝ p) (central : List ℝ) (ε : ℝ) (symmetric : Bool) :
    List (Nat × Fin p) → Except PyErr (Sim p × List ((Nat × Fin p) × List ℝ))
  | [] => .ok (sim, [])
  | (t, j) :: rest => do
    let (sim, q) ← numStep sim y central ε symmetric t j
    let (sim, qs) ← numLoop sim y central ε symmetric rest
    pure (sim, ((t, j), q) :: qs)

/-- The index pairs of the double loop `for n_time in range(n_times): for n_operator in range(n_operators)`. -/
def pairs (n p : Nat) : List (Nat × Fin p) := (List.range n).flatMap fun t => (List.finRange p).map fun j => (t, j)

/-- `gradients[n_time, i, n_operator]` after the assignments `cols` to an array of zeros. -/
def assigned (cols : List ((Nat × Fin p) × List ℝ)) (t i : Nat) (j : Fin p) : ℝ :=
  match cols.find? (fun e => decide (e.1 = (t, j))) with
  | some e => e.2.getD i 0
  | none => 0

/-- `Simulator.numeric_gradient`, simulator.py:338-390.  The result has the axes `(time, func, par)`. -/
noncomputable def numericGradient (sim : Sim p) (pulse : Option (Pulse ℝ p)) (ε : ℝ) (symmetric : Bool) :
    Except PyErr (Sim p × List (List (Fin p → ℝ))) := do
  let y ← sim.given pulse
  let (sim, central) ← sim.wrappedCosts (some y)
  let (sim, cols) ← numLoop sim y central ε symmetric (pairs y.length p)
  pure (sim, (List.range y.length).map fun t => (List.range central.length).map fun i j => assigned cols t i j)

/-- The default `delta_eps`, simulator.py:340. -/
noncomputable def defaultEps : ℝ := 1 / 100000000

/-- `Simulator.wrapped_jac_function`, simulator.py:237-293. -/
noncomputable def wrappedJac (sim : Sim p) (pulse : Option (Pulse ℝ p)) : Except PyErr (Sim p × List (List (Fin p → ℝ))) :=
  match sim.numericJacobian with
  | true => sim.numericGradient pulse defaultEps false
  | false => do
    let y ← sim.given pulse
    let ss ← setSolvers sim.solvers y
    let jacs ← jacLoop ss y sim.costFuncs
    let total ← concatenate1 jacs
    pure ({ sim with solvers := ss }, total)

/-- The setter of `pulse`, simulator.py:144-149: the shape is read off the *old* parameters (AttributeError when there are
none). -/
def setPulse (sim : Sim p) : Option (Pulse ℝ p) → Except PyErr (Sim p)
  | none => .ok { sim with pulse := none }
  | some y => match sim.pulse with
    | none => .error .attributeError
    | some old => .ok { sim with numTimes := some old.length, numCtrl := some p, pulse := some y }

end Sim
end Verif.Sim
