import Verif.Transfer.Model
import Mathlib.Data.Real.Sqrt
import Mathlib.Algebra.BigOperators.Group.List.Lemmas

/-!
# The optimizer base class (optimize.py:92-360, 500-525)

Arrays that are shared between the optimizer, its records and its caller live in a heap, because `cost_func_wrapper` stores
references and views and multiplies the weights in place.

Simplifications (also listed in DESIGN.md):
* the numerical optimiser (scipy) is an arbitrary caller: it may call the two wrappers in any order with any vectors and may
  overwrite the arrays it passed in or got back;
* the simulator is an arbitrary function of the number of the call and the pulse, which may raise; `nan` does not occur;
* the time since the start of the optimisation is an argument of each call;
* performance statistics and the storage of the optimizer in the result are not modelled.
-/

namespace Verif.Optim
open Verif Verif.Transfer

/-! ## Reshaping -/

/-- `initial_control_amplitudes.T.flatten()`, optimize.py:424, 539, 577, 607 (and `self.state.T.flatten()`, 756). -/
def flattenT {α : Type} {C : Nat} (y : List (Fin C → α)) : List α := (List.finRange C).flatMap fun c => y.map fun r => r c

/-- `v.reshape(self.pulse_shape[::-1]).T` for `pulse_shape = (T, C)`, optimize.py:214, 220, 225, 250: ValueError when the number
of entries does not fit; entry `[t, c]` of the result is entry `c * T + t` of the vector. -/
def unflatten {α : Type} [Zero α] (T C : Nat) (v : List α) : Except PyErr (List (Fin C → α)) :=
  if v.length = C * T then .ok ((List.range T).map fun t c => v.getD (c * T + t) 0) else .error .valueError

/-- Entries of a two-dimensional array in row-major order: what `reshape` reads when it is given an array of shape `(T, C)`. -/
def rowMajor {α : Type} {C : Nat} (y : List (Fin C → α)) : List α := y.flatMap List.ofFn

/-- `jacobian.transpose([1, 2, 0])` and reshaping to two dimensions, optimize.py:255-258: the result has the axes
`(func, ctrl * time)`. -/
def flattenJac {F C : Nat} (J : Grads ℝ F C) : List (List ℝ) := List.ofFn fun f => flattenT (J.map fun r => r f)

/-! ## State -/

/-- What ends a call: a Python exception of the library, or `WallTimeExceeded`. -/
inductive Stop where
  | wallTime
  | py (e : PyErr)
  deriving DecidableEq

/-- The configuration of an optimizer: `pulse_shape`, the number of cost values, weights, flags and the time limit. -/
structure Cfg where
  T : Nat
  C : Nat
  F : Nat
  /-- `cost_func_weights`, optimize.py:184-191 (an empty list of weights becomes `None` there) -/
  weights : Option (List ℝ)
  save : Bool
  useJac : Bool
  /-- `ScalarMinimizingOptimizer` overrides the wrappers by their sums -/
  scalar : Bool
  maxWall : ℝ
  /-- `system_simulator.wrapped_cost_functions` at the n-th call -/
  sim : Nat → Pulse ℝ C → Except PyErr (List ℝ)
  /-- `system_simulator.wrapped_jac_function` at the n-th call -/
  jac : Nat → Pulse ℝ C → Except PyErr (Grads ℝ F C)

/-- The mutable attributes.  `costs`, `pars`, `minCosts` and `minPar` are references into the heap of one-dimensional arrays;
the entries of `pars` and `minPar` are views (`reshape(...).T`) of the vector at that address. -/
structure St (F C : Nat) where
  heap : List (List ℝ)
  calls : Nat
  /-- `optim_iter_summary.iter_num`, `.costs`, `.parameters`, `.gradients` -/
  iterNum : Nat
  costs : List Nat
  pars : List Nat
  gradients : List (Grads ℝ F C)
  /-- `_min_costs` (`none` is `np.inf`) and `_min_costs_par` -/
  minCosts : Option Nat
  minPar : Option Nat
  nCost : Nat
  nJac : Nat

/-- After `prepare_optimization`, optimize.py:290-320. -/
def prepared (F C : Nat) : St F C :=
  { heap := [], calls := 0, iterNum := 0, costs := [], pars := [], gradients := [], minCosts := none, minPar := none, nCost := 0, nJac := 0 }

/-- Reading an array. -/
def deref (heap : List (List ℝ)) (a : Nat) : List ℝ := heap.getD a []

/-- `np.linalg.norm` of a vector. -/
noncomputable def norm (v : List ℝ) : ℝ := √ (v.map fun x => x ^ 2).sum

/-- `np.linalg.norm(costs) < np.linalg.norm(self._min_costs)`, optimize.py:223. -/
def better (heap : List (List ℝ)) (v : List ℝ) : Option Nat → Prop
  | none => True
  | some a => norm v < norm (deref heap a)

/-- `costs *= self.cost_func_weights`, optimize.py:228-229: in place; a single weight is broadcast, other lengths must agree. -/
noncomputable def weigh (w : Option (List ℝ)) (v : List ℝ) : Except PyErr (List ℝ) :=
  match w with
  | none => .ok v
  | some [x] => .ok (v.map (· * x))
  | some l => if l.length = v.length then .ok (List.zipWith (· * ·) v l) else .error .valueError

section
variable (cfg : Cfg)

open Classical in
/-- `Optimizer.cost_func_wrapper`, optimize.py:193-232, for the vector at address `vec`, after `elapsed` seconds; returns the
address of the array of costs. -/
noncomputable def costWrapper (st : St cfg.F cfg.C) (vec : Nat) (elapsed : ℝ) : Except Stop Nat × St cfg.F cfg.C :=
  if cfg.maxWall < elapsed then (.error .wallTime, st)
  else
    match unflatten cfg.T cfg.C (deref st.heap vec) with
    | .error e => (.error (.py e), st)
    | .ok y =>
      match cfg.sim st.calls y with
      | .error e => (.error (.py e), { st with calls := st.calls + 1 })
      | .ok v =>
        let a := st.heap.length
        let st := { st with heap := st.heap ++ [v], calls := st.calls + 1 }
        let st := if cfg.save then { st with iterNum := st.iterNum + 1, costs := st.costs ++ [a], pars := st.pars ++ [vec] } else st
        let st := if better st.heap v st.minCosts then { st with minCosts := some a, minPar := some vec } else st
        match weigh cfg.weights v with
        | .error e => (.error (.py e), st)
        | .ok v' => (.ok a, { st with heap := st.heap.set a v', nCost := st.nCost + 1 })

/-- `jacobian = np.einsum('ab, a -> ab', jacobian, self.cost_func_weights)`, optimize.py:261-263: axes of length one are
broadcast, other lengths must agree. -/
def weighJac (w : Option (List ℝ)) (J : List (List ℝ)) : Except PyErr (List (List ℝ)) :=
  match w, J with
  | none, J => .ok J
  | some [x], J => .ok (J.map fun row => row.map (· * x))
  | some l, [row] => .ok (l.map fun x => row.map (· * x))
  | some l, J => if l.length = J.length then .ok (List.zipWith (fun row x => row.map (· * x)) J l) else .error .valueError

/-- `Optimizer.cost_jacobian_wrapper`, optimize.py:234-267, given the entries of the array passed in. -/
noncomputable def jacWrapper (st : St cfg.F cfg.C) (entries : List ℝ) : Except PyErr (List (List ℝ)) × St cfg.F cfg.C :=
  match unflatten cfg.T cfg.C entries with
  | .error e => (.error e, st)
  | .ok y =>
    match cfg.jac st.calls y with
    | .error e => (.error e, { st with calls := st.calls + 1 })
    | .ok J =>
      let st := { st with calls := st.calls + 1 }
      let st := if cfg.save then { st with gradients := st.gradients ++ [J] } else st
      match weighJac cfg.weights (flattenJac J) with
      | .error e => (.error e, st)
      | .ok j => (.ok j, { st with nJac := st.nJac + 1 })

/-- `ScalarMinimizingOptimizer.cost_func_wrapper`, optimize.py:500-508, `np.sum(costs)`. -/
noncomputable def scalarCost (st : St cfg.F cfg.C) (vec : Nat) (elapsed : ℝ) : Except Stop ℝ × St cfg.F cfg.C :=
  match costWrapper cfg st vec elapsed with
  | (.error e, st) => (.error e, st)
  | (.ok a, st) => (.ok (deref st.heap a).sum, st)

/-- `np.sum(jac, axis=0)` of an array with `n` columns. -/
def sumRows (n : Nat) (J : List (List ℝ)) : List ℝ := (List.range n).map fun k => (J.map fun row => row.getD k 0).sum

/-- `ScalarMinimizingOptimizer.cost_jacobian_wrapper`, optimize.py:510-525. -/
noncomputable def scalarJac (st : St cfg.F cfg.C) (entries : List ℝ) : Except PyErr (List ℝ) × St cfg.F cfg.C :=
  match jacWrapper cfg st entries with
  | (.error e, st) => (.error e, st)
  | (.ok j, st) => (.ok (sumRows (cfg.C * cfg.T) j), st)

/-- `self.cost_jacobian_wrapper`, dispatched on the class, with all entries as one list (for the norm). -/
noncomputable def ownJac (st : St cfg.F cfg.C) (entries : List ℝ) : Except PyErr (List ℝ) × St cfg.F cfg.C :=
  match cfg.scalar with
  | true => scalarJac cfg st entries
  | false => match jacWrapper cfg st entries with
    | (.error e, st) => (.error e, st)
    | (.ok j, st) => (.ok j.flatten, st)

/-- The fields of the result of a timed-out optimisation that depend on the history. -/
structure TimeoutResult (C : Nat) where
  /-- `final_cost`; `none` is `np.inf` -/
  finalCost : Option (List ℝ)
  finalParameters : Option (Pulse ℝ C)
  finalGradNorm : ℝ
  numIter : Nat
  status : Nat

/-- The view `_min_costs_par`; the vector had the right length when it was stored. -/
def viewPar (st : St cfg.F cfg.C) (a : Nat) : Pulse ℝ cfg.C :=
  match unflatten cfg.T cfg.C (deref st.heap a) with
  | .ok y => y
  | .error _ => []

/-- `Optimizer.write_state_to_result`, optimize.py:322-360: the Jacobian wrapper is called with the *two-dimensional* array
`_min_costs_par`, which it reshapes again (AttributeError when there is none yet). -/
noncomputable def writeState (st : St cfg.F cfg.C) : Except PyErr (TimeoutResult cfg.C) × St cfg.F cfg.C :=
  let build (n : ℝ) (st : St cfg.F cfg.C) : TimeoutResult cfg.C :=
    { finalCost := st.minCosts.map (deref st.heap), finalParameters := st.minPar.map (viewPar cfg st), finalGradNorm := n,
      numIter := st.nCost, status := 5 }
  match cfg.useJac with
  | false => (.ok (build 0 st), st)
  | true => match st.minPar with
    | none => (.error .attributeError, st)
    | some a => match ownJac cfg st (rowMajor (viewPar cfg st a)) with
      | (.error e, st) => (.error e, st)
      | (.ok j, st) => (.ok (build (norm j) st), st)

/-! ## Histories -/

/-- What the numerical optimiser does: evaluate the costs at a vector (a new array with these entries), the Jacobian, or
overwrite an array it has access to. -/
inductive Event where
  | cost (v : List ℝ) (elapsed : ℝ)
  | jac (v : List ℝ)
  | write (address : Nat) (v : List ℝ)

/-- One event; the optimiser stops at the first exception. -/
noncomputable def step (st : St cfg.F cfg.C) : Event → Option Stop × St cfg.F cfg.C
  | .cost v elapsed =>
    match costWrapper cfg { st with heap := st.heap ++ [v] } st.heap.length elapsed with
    | (.error e, st) => (some e, st)
    | (.ok _, st) => (none, st)
  | .jac v => match jacWrapper cfg st v with
    | (.error e, st) => (some (.py e), st)
    | (.ok _, st) => (none, st)
  | .write a v => (none, { st with heap := st.heap.set a v })

/-- A history, up to the first exception. -/
noncomputable def run (st : St cfg.F cfg.C) : List Event → Option Stop × St cfg.F cfg.C
  | [] => (none, st)
  | e :: es => match step cfg st e with
    | (some x, st) => (some x, st)
    | (none, st) => run st es

end
end Verif.Optim
