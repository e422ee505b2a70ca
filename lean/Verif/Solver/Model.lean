import Verif.Operator.Exp

/-!
# The Schroedinger solver with its caches (solver_algorithms.py:225-980)

A solver object is a configuration `Cfg`, fixed by the constructor, and a mutable state `St`.  Methods are
functions of the state returning the exception (if any) *and* the state they leave behind, because a Python
method that raises half way keeps the assignments made so far.

Simplifications (also listed in DESIGN.md):
* pulses, transferred parameters and control amplitudes are lists of rows of real numbers; the shape check of
  the amplitudes is modelled through `Raw`;
* the transfer function is a function of the time grid and the pulse, i.e. it is assumed to have no history
  (the transfer-matrix cache is the subject of properties C06 and C10);
* the constructor argument `ctrl_amps` is not modelled (the amplitudes are unset after construction);
* sparse operators are not modelled.
-/

namespace Verif.Solver
open Verif Verif.Operator Matrix

/-- Pulse, transferred parameters, control amplitudes: one row per time step. -/
abbrev Pulse := List (List ℝ)

/-- What an amplitude function may return: an array of any number of dimensions. -/
structure Raw where
  /-- `len(u.shape)` -/
  ndim : Nat
  /-- `u.shape[1]` -/
  cols : Nat
  rows : Pulse
  /-- arrays are rectangular -/
  rect : ndim = 2 → ∀ row ∈ rows, row.length = cols

/-- `frechet_deriv_approx_method`: `None`/empty, `'grape'` or another string. -/
inductive ApproxMethod where
  | none | grape | other
  deriving DecidableEq

/-- What the constructor fixes.  `gens` and `dirs` are the overridable methods `_compute_dyn_gen` and
`_compute_derivative_directions`, as functions of the transferred times, control amplitudes and transferred
parameters. -/
structure Cfg (n m : Type) where
  L : Lapack n
  method : Method
  skew : Bool
  calcDeriv : Bool
  approx : ApproxMethod
  init : Matrix n m ℂ
  nCtrl : Nat
  gens : Pulse → List (Matrix n n ℂ)
  dirs : List ℝ → Pulse → List (List (Matrix n n ℂ))
  /-- `transfer_function(y)` after `transfer_function.set_times(tau)` -/
  tf : List ℝ → Pulse → Except PyErr Pulse
  /-- `transfer_function.x_times` after `set_times(tau)` -/
  xTimes : List ℝ → List ℝ
  /-- `amplitude_function(x)` -/
  amp : Pulse → Except PyErr Raw

/-- The mutable attributes. `none` is Python's `None`.  A derivative cell is `some none` when it holds NaN. -/
structure St (n m : Type) where
  /-- the grid last given to the transfer function -/
  tau : List ℝ
  /-- `transferred_time` -/
  times : List ℝ
  /-- `_opt_pars` -/
  optPars : Option Pulse
  /-- `transferred_parameters` -/
  xPars : Option Pulse
  /-- `_ctrl_amps` -/
  amps : Option Pulse
  /-- `_dyn_gen` -/
  dynGen : Option (List (Matrix n n ℂ))
  /-- `_prop` -/
  prop : Option (List (Option (Matrix n n ℂ)))
  /-- `_derivative_prop` -/
  deriv : Option (List (List (Option (Option (Matrix n n ℂ)))))
  /-- `_fwd_prop` -/
  fwd : Option (List (Matrix n m ℂ))
  /-- `_reversed_prop` -/
  rev : Option (List (Matrix n n ℂ))

section
variable {n m : Type} [Fintype n] [DecidableEq n]

/-! ## Generator and directions of the Schroedinger equation -/

/-- The inner loop of `_compute_dyn_gen`, solver_algorithms.py:897-899: `zip` stops at the shorter list, the
other generators stay as they are. -/
def addCtrl (H : Matrix n n ℂ) : List (Matrix n n ℂ) → List ℝ → List (Matrix n n ℂ)
  | G :: Gs, a :: as => (G + (-Complex.I * (a : ℂ)) • H) :: addCtrl H Gs as
  | Gs, _ => Gs

/-- Column `c` of the amplitudes, `self._ctrl_amps[:, ctrl]`. -/
def column (u : Pulse) (c : Nat) : List ℝ := u.map fun row => row.getD c 0

/-- The outer loop of `_compute_dyn_gen`: control operators `Hs`, the first one having index `c`. -/
def addCtrls (u : Pulse) : Nat → List (Matrix n n ℂ) → List (Matrix n n ℂ) → List (Matrix n n ℂ)
  | _, [], Gs => Gs
  | c, H :: Hs, Gs => addCtrls u (c + 1) Hs (addCtrl H Gs (column u c))

/-- `SchroedingerSolver._compute_dyn_gen`, solver_algorithms.py:885-900. -/
def schroedGens (drift ctrl : List (Matrix n n ℂ)) (u : Pulse) : List (Matrix n n ℂ) :=
  addCtrls u 0 ctrl (drift.map fun h => (-Complex.I) • h)

/-- `SchroedingerSolver._compute_derivative_directions`, solver_algorithms.py:902-913. -/
def schroedDirs (ctrl : List (Matrix n n ℂ)) (times : List ℝ) (_u : Pulse) : List (List (Matrix n n ℂ)) :=
  List.replicate times.length (ctrl.map fun H => (-Complex.I) • H)

/-! ## Propagation -/

/-- The default `epsilon` of `dexp` (matrix.py:1152). -/
noncomputable def dexpEps : ℝ := 1 / 10000000000

/-- The inner loop over the controls at one time step, solver_algorithms.py:937-948: every call overwrites
`_prop[t]`; the derivatives are collected. -/
noncomputable def stepControls (cfg : Cfg n m) (G : Matrix n n ℂ) (τ : ℝ) :
    List (Matrix n n ℂ) → Option (Matrix n n ℂ) → Except PyErr (Option (Matrix n n ℂ) × List (Option (Matrix n n ℂ)))
  | [], p => .ok (p, [])
  | D :: Ds, _ => do
    let r ← dexp cfg.L G D (τ : ℂ) true cfg.method cfg.skew dexpEps
    let rest ← stepControls cfg G τ Ds r.prop
    pure (rest.1, r.grad :: rest.2)

/-- One pass of the loop over time with derivatives. `gens[t]`, `dirs[t]` and `dirs[t][ctrl]` raise IndexError when missing.
Simplified: if `dirs[t][ctrl]` is missing for a later control (only possible with incomplete derivative functions of a Lindblad
solver), the cells written for the earlier controls of the same step are discarded here, while the code keeps them. -/
noncomputable def stepDeriv (cfg : Cfg n m) (gens : List (Matrix n n ℂ)) (dirs : List (List (Matrix n n ℂ)))
    (times : List ℝ) (t : Nat) : Except PyErr (Option (Matrix n n ℂ) × List (Option (Matrix n n ℂ))) :=
  match gens[t]?, dirs[t]?, times[t]? with
  | some G, some Ds, some τ => do
    let r ← stepControls cfg G τ Ds none
    if Ds.length < cfg.nCtrl then .error .indexError else pure r
  | _, _, _ => .error .indexError

/-- One pass of the loop over time without derivatives, solver_algorithms.py:950-953. -/
noncomputable def stepPlain (cfg : Cfg n m) (gens : List (Matrix n n ℂ)) (times : List ℝ) (t : Nat) :
    Except PyErr (Option (Matrix n n ℂ)) :=
  match gens[t]?, times[t]? with
  | some G, some τ => (Operator.exp cfg.L G (τ : ℂ) cfg.method cfg.skew).map some
  | _, _ => .error .indexError

/-- A loop filling a list of `None`s: stops at the first exception, the remaining cells keep the value they
were initialised with. -/
def fill {α : Type} (unset : α) : List (Except PyErr α) → List α × Option PyErr
  | [] => ([], none)
  | .ok a :: l => let r := fill unset l; (a :: r.1, r.2)
  | .error e :: l => (unset :: l.map (fun _ => unset), some e)

/-- `_derivative_prop[ctrl][t]` from the cells collected per time step. -/
def byControl (nCtrl : Nat) (cells : List (List (Option (Matrix n n ℂ)))) :
    List (List (Option (Option (Matrix n n ℂ)))) :=
  (List.range nCtrl).map fun c => cells.map fun cell => cell[c]?

/-- `SchroedingerSolver._compute_propagation`, solver_algorithms.py:915-953. -/
noncomputable def computePropagation (cfg : Cfg n m) (wd : Bool) (s : St n m) : Option PyErr × St n m :=
  match s.amps with
  | none => (some .valueError, s)
  | some u =>
    let gens := s.dynGen.getD (cfg.gens u)
    let s := { s with dynGen := some gens }
    if wd then
      let r := fill (none, []) ((List.range s.times.length).map
        (stepDeriv cfg gens (cfg.dirs s.times u) s.times))
      (r.2, { s with prop := some (r.1.map Prod.fst), deriv := some (byControl cfg.nCtrl (r.1.map Prod.snd)) })
    else
      let r := fill none ((List.range s.times.length).map (stepPlain cfg gens s.times))
      (r.2, { s with prop := some r.1 })

/-- The loop of `_compute_forward_propagation`, solver_algorithms.py:637-638: `None * operator` raises
NotImplementedError (matrix.py:764). `last` is the last element already in the list. -/
def fwdLoop : List (Option (Matrix n n ℂ)) → Matrix n m ℂ → List (Matrix n m ℂ) × Option PyErr
  | [], _ => ([], none)
  | none :: _, _ => ([], some .notImplementedError)
  | some P :: ps, last => let r := fwdLoop ps (P * last); (P * last :: r.1, r.2)

/-- The loop of `_compute_reversed_propagation`, solver_algorithms.py:656-657. -/
def revLoop : List (Option (Matrix n n ℂ)) → Matrix n n ℂ → List (Matrix n n ℂ) × Option PyErr
  | [], _ => ([], none)
  | none :: _, _ => ([], some .notImplementedError)
  | some P :: ps, last => let r := revLoop ps (last * P); (last * P :: r.1, r.2)

/-- `if self._prop is None: self._compute_propagation()`. -/
noncomputable def ensureProp (cfg : Cfg n m) (wd : Bool) (s : St n m) : Option PyErr × St n m :=
  match s.prop with
  | some _ => (none, s)
  | none => computePropagation cfg wd s

/-- `_compute_forward_propagation`, solver_algorithms.py:632-638. -/
noncomputable def computeFwd (cfg : Cfg n m) (s : St n m) : Option PyErr × St n m :=
  match ensureProp cfg cfg.calcDeriv s with
  | (some e, s) => (some e, s)
  | (none, s) =>
    let r := fwdLoop (s.prop.getD []) cfg.init
    (r.2, { s with fwd := some (cfg.init :: r.1) })

/-- `_compute_reversed_propagation`, solver_algorithms.py:640-657, for a dense initial state: `self._prop[0]`
raises IndexError for an empty list, `None.shape` AttributeError. -/
noncomputable def computeRev (cfg : Cfg n m) (s : St n m) : Option PyErr × St n m :=
  match ensureProp cfg cfg.calcDeriv s with
  | (some e, s) => (some e, s)
  | (none, s) =>
    match s.prop.getD [] with
    | [] => (some .indexError, s)
    | none :: _ => (some .attributeError, s)
    | some P :: ps =>
      let r := revLoop ((some P :: ps).reverse) 1
      (r.2, { s with rev := some (1 :: r.1) })

/-- One row of the 'grape' derivatives, solver_algorithms.py:973-976: `tau * direction * None` raises
NotImplementedError, a missing entry of one of the lists IndexError. -/
noncomputable def grapeRow (nCtrl : Nat) (dirs : List (List (Matrix n n ℂ))) (times : List ℝ)
    (props : List (Option (Matrix n n ℂ))) (t : Nat) :
    Except PyErr (List (Option (Option (Matrix n n ℂ)))) :=
  match dirs[t]?, times[t]?, props[t]? with
  | some Ds, some τ, some (some P) =>
    if Ds.length < nCtrl then .error .indexError else .ok (Ds.map fun D => some (some (((τ : ℂ) • D) * P)))
  | some _, some _, some none => .error .notImplementedError
  | _, _, _ => .error .indexError

/-- `_compute_propagation_derivatives`, solver_algorithms.py:955-980. -/
noncomputable def computeDeriv (cfg : Cfg n m) (s : St n m) : Option PyErr × St n m :=
  match cfg.approx with
  | .none => computePropagation cfg true s
  | .grape =>
    match ensureProp cfg false s with
    | (some e, s) => (some e, s)
    | (none, s) =>
      let r := fill (List.replicate cfg.nCtrl none) ((List.range s.times.length).map
        (grapeRow cfg.nCtrl (cfg.dirs s.times (s.amps.getD [])) s.times (s.prop.getD [])))
      (r.2, { s with deriv := some r.1 })
  | .other => (some .valueError, s)

/-! ## Public interface -/

/-- `reset_cached_propagators`, solver_algorithms.py:406-412 and 880-883. -/
def reset (s : St n m) : St n m :=
  { s with dynGen := none, prop := none, deriv := none, fwd := none, rev := none }

/-- The shape checks of `set_optimization_parameters`, solver_algorithms.py:388-400. -/
def checkAmps (steps nCtrl : Nat) (u : Raw) : Option PyErr :=
  if u.ndim ≠ 2 then some .valueError
  else if u.rows.length ≠ steps then some .valueError
  else if u.cols ≠ nCtrl then some .valueError
  else none

open scoped Classical in
/-- `set_optimization_parameters`, solver_algorithms.py:874-878 followed by 358-404. -/
noncomputable def setPars (cfg : Cfg n m) (y : Pulse) (s : St n m) : Option PyErr × St n m :=
  if s.optPars = some y then (none, s)
  else
    let s := { reset s with optPars := some y }
    match cfg.tf s.tau y with
    | .error e => (some e, s)
    | .ok x =>
      let s := { s with xPars := some x }
      match cfg.amp x with
      | .error e => (some e, s)
      | .ok u =>
        match checkAmps s.times.length cfg.nCtrl u with
        | some e => (some e, s)
        | none => (none, reset { s with amps := some u.rows })

/-- `set_times`, solver_algorithms.py:345-356 (a grid the transfer function rejects is not modelled). -/
def setTimes (cfg : Cfg n m) (τ : List ℝ) (s : St n m) : St n m :=
  reset { s with tau := τ, times := cfg.xTimes τ }

/-- State after construction, solver_algorithms.py:265-343. -/
def construct (cfg : Cfg n m) (τ : List ℝ) : St n m :=
  setTimes cfg τ ⟨[], [], none, none, none, none, none, none, none, none⟩

/-- Property `propagators`, solver_algorithms.py:465-478. -/
noncomputable def readProps (cfg : Cfg n m) (s : St n m) :
    Except PyErr (List (Option (Matrix n n ℂ))) × St n m :=
  match s.prop with
  | some p => (.ok p, s)
  | none => match computePropagation cfg cfg.calcDeriv s with
    | (some e, s) => (.error e, s)
    | (none, s) => (.ok (s.prop.getD []), s)

/-- Property `forward_propagators`, solver_algorithms.py:480-498. -/
noncomputable def readFwd (cfg : Cfg n m) (s : St n m) : Except PyErr (List (Matrix n m ℂ)) × St n m :=
  match s.fwd with
  | some p => (.ok p, s)
  | none => match computeFwd cfg s with
    | (some e, s) => (.error e, s)
    | (none, s) => (.ok (s.fwd.getD []), s)

/-- Property `reversed_propagators`, solver_algorithms.py:516-534. -/
noncomputable def readRev (cfg : Cfg n m) (s : St n m) : Except PyErr (List (Matrix n n ℂ)) × St n m :=
  match s.rev with
  | some p => (.ok p, s)
  | none => match computeRev cfg s with
    | (some e, s) => (.error e, s)
    | (none, s) => (.ok (s.rev.getD []), s)

/-- Property `frechet_deriv_propagators`, solver_algorithms.py:500-514. -/
noncomputable def readDeriv (cfg : Cfg n m) (s : St n m) :
    Except PyErr (List (List (Option (Option (Matrix n n ℂ))))) × St n m :=
  match s.deriv with
  | some p => (.ok p, s)
  | none => match computeDeriv cfg s with
    | (some e, s) => (.error e, s)
    | (none, s) => (.ok (s.deriv.getD []), s)

/-- The constructor's treatment of `h_drift`, solver_algorithms.py:330-336 and 437-448: a single operator (or a
list of one) is repeated for every transferred time step of the grid known at construction; otherwise the list
must have one entry per step or be empty. -/
def constructDrift (h : List (Matrix n n ℂ)) (steps : Nat) : Except PyErr (List (Matrix n n ℂ)) :=
  match h with
  | [H] => .ok (List.replicate steps H)
  | h => if h.length = steps ∨ h.length = 0 then .ok h else .error .valueError

/-- A Schroedinger solver. -/
def schroedCfg (L : Lapack n) (method : Method) (skew calcDeriv : Bool) (approx : ApproxMethod)
    (init : Matrix n m ℂ) (drift ctrl : List (Matrix n n ℂ)) (tf : List ℝ → Pulse → Except PyErr Pulse)
    (xTimes : List ℝ → List ℝ) (amp : Pulse → Except PyErr Raw) : Cfg n m :=
  { L := L, method := method, skew := skew, calcDeriv := calcDeriv, approx := approx, init := init,
    nCtrl := ctrl.length, gens := schroedGens drift ctrl, dirs := schroedDirs ctrl, tf := tf, xTimes := xTimes,
    amp := amp }

end
end Verif.Solver
