import Verif.Solver.NoiseTrace
import Verif.Solver.CacheThms

/-!
# The caches of the Monte Carlo solver (solver_algorithms.py:1109-1449 with 874-980 and 345-657)

`Solver/MonteCarlo.lean` and `Solver/NoiseTrace.lean` describe the values computed by the Monte Carlo solver as functions of
given noise samples.  Here the solver is an object: the state of the parent class (`St`), the attributes added by the
subclass, and the state of the noise trace generator, which is read while computing.

Simplifications: `noise_trace_generator.n_traces` is a constant (it is, unless it is `None` or `0`, see C77); with control
amplitudes unset TypeError is raised (without control operators it would be ValueError, after reading the samples); worker
processes raise like the loop over the traces would (the first exception in order).
-/

namespace Verif.Solver
open Verif Verif.Operator Matrix

section
variable {n m γ : Type} [Fintype n] [DecidableEq n]

/-- Constructor arguments of `SchroedingerSMonteCarlo`, solver_algorithms.py:1111-1157. -/
structure NCfg (n m γ : Type) where
  base : Cfg n m
  hNoise : List (Matrix n n ℂ)
  procs : Procs
  noiseAmp : Option (Arr3 → Pulse → Pulse → Pulse → Except PyErr Arr3)
  nTraces : Nat
  /-- reading `noise_trace_generator.noise_samples`: the samples and the new state of the generator -/
  draw : γ → Except PyErr Arr3 × γ

/-- The solver with given samples. -/
def NCfg.mc (c : NCfg n m γ) (A : Arr3) : MC n m :=
  { base := c.base, hNoise := c.hNoise, procs := c.procs, noiseAmp := c.noiseAmp, nTraces := c.nTraces, samples := A }

/-- Propagators of all traces. -/
abbrev PropsN (n : Type) := List (List (Option (Matrix n n ℂ)))
/-- Derivatives of the propagators of all traces. -/
abbrev DerivsN (n : Type) := List (List (List (Option (Option (Matrix n n ℂ)))))

/-- The mutable attributes. -/
structure NSt (n m γ : Type) where
  /-- the attributes of the parent class -/
  core : St n m
  /-- `_dyn_gen_noise` -/
  gens : Option (List (List (Matrix n n ℂ)))
  /-- `_prop_noise` -/
  prop : Option (PropsN n)
  /-- `_derivative_prop_noise` -/
  deriv : Option (DerivsN n)
  /-- `_fwd_prop_noise` -/
  fwd : Option (List (List (Matrix n m ℂ)))
  /-- `_reversed_prop_noise` -/
  rev : Option (List (List (Matrix n n ℂ)))
  /-- the noise trace generator -/
  rng : γ

/-- The additions in place, solver_algorithms.py:1289-1293: the lists so far and the exception. -/
def addAll : List (Nat × Nat × Matrix n n ℂ) → List (List (Matrix n n ℂ)) → List (List (Matrix n n ℂ)) × Option PyErr
  | [], gs => (gs, none)
  | p :: ps, gs => match addAt gs p with
    | .error e => (gs, some e)
    | .ok gs' => addAll ps gs'

/-- `_compute_dyn_gen_noise`, solver_algorithms.py:1256-1294. -/
def nGens (c : NCfg n m γ) (u : Pulse) (s : NSt n m γ) : Option PyErr × NSt n m γ :=
  let s := { s with core := { s.core with dynGen := some (c.base.gens u) } }
  match c.draw s.rng with
  | (.error e, g) => (some e, { s with rng := g })
  | (.ok A, g) =>
    match noiseAmplitudes (c.mc A) (s.core.optPars.getD []) (s.core.xPars.getD []) u with
    | .error e => (some e, { s with rng := g })
    | .ok B =>
      let r := addAll (noiseUpdates B c.hNoise) (List.replicate c.nTraces (c.base.gens u))
      (r.2, { s with gens := some r.1, rng := g })

/-- The cells of one trace and the exception, solver_algorithms.py:1334-1356. -/
noncomputable def traceCells (cfg : Cfg n m) (wd : Bool) (times : List ℝ) (u : Pulse) (g : List (Matrix n n ℂ)) :
    TraceOut n × Option PyErr :=
  if wd then
    let r := fill (none, []) ((List.range times.length).map (stepDeriv cfg g (cfg.dirs times u) times))
    ((r.1.map Prod.fst, byControl cfg.nCtrl (r.1.map Prod.snd)), r.2)
  else
    let r := fill none ((List.range times.length).map (stepPlain cfg g times))
    ((r.1, []), r.2)

/-- A loop over the traces: after an exception the remaining traces stay as initialised. -/
def fillTraces {α : Type} (unset : α) : List (α × Option PyErr) → List α × Option PyErr
  | [] => ([], none)
  | (a, none) :: l => let r := fillTraces unset l; (a :: r.1, r.2)
  | (a, some e) :: l => (a :: l.map fun _ => unset, some e)

/-- The part of `_compute_propagation` after the generators, solver_algorithms.py:1315-1379. -/
noncomputable def nLoops (c : NCfg n m γ) (wd : Bool) (u : Pulse) (s : NSt n m γ) : Option PyErr × NSt n m γ :=
  let unsetP : List (Option (Matrix n n ℂ)) := s.core.times.map fun _ => none
  let unsetD : List (List (Option (Option (Matrix n n ℂ)))) := List.replicate c.base.nCtrl (s.core.times.map fun _ => none)
  let s := { s with prop := some (List.replicate c.nTraces unsetP),
                    deriv := if wd then some (List.replicate c.nTraces unsetD) else s.deriv }
  match computePropagation c.base wd s.core with
  | (some e, k) => (some e, { s with core := k })
  | (none, k) =>
    let s := { s with core := k }
    let ng := s.gens.getD []
    match c.procs.mode with
    | .serial =>
      let t := fillTraces (unsetP, unsetD) ((List.range c.nTraces).map fun i =>
        traceCells c.base wd s.core.times u (ng.getD i []))
      (t.2, { s with prop := some (t.1.map Prod.fst), deriv := if wd then some (t.1.map Prod.snd) else s.deriv })
    | .parallel =>
      if wd then (some .notImplementedError, s)
      else match inOrder [] ((List.range c.nTraces).map fun i => matrixExponentials c.base (ng.getD i []) s.core.times) with
        | .error e => (some e, s)
        | .ok p => (none, { s with prop := some p })
    | .invalid => (some .valueError, s)

/-- `_compute_propagation`, solver_algorithms.py:1296-1379. -/
noncomputable def nPropagation (c : NCfg n m γ) (wd : Bool) (s : NSt n m γ) : Option PyErr × NSt n m γ :=
  match s.core.amps with
  | none => (some .typeError, s)
  | some u =>
    match s.gens with
    | some _ => nLoops c wd u s
    | none => match nGens c u s with
      | (some e, s) => (some e, s)
      | (none, s) => nLoops c wd u s

/-- `if self._prop is None: self._compute_propagation()` in the parent class. -/
noncomputable def nEnsure (c : NCfg n m γ) (wd : Bool) (s : NSt n m γ) : Option PyErr × NSt n m γ :=
  match s.core.prop with
  | some _ => (none, s)
  | none => nPropagation c wd s

/-- `if self._prop_noise is None: self._compute_propagation()`. -/
noncomputable def nEnsureNoise (c : NCfg n m γ) (wd : Bool) (s : NSt n m γ) : Option PyErr × NSt n m γ :=
  match s.prop with
  | some _ => (none, s)
  | none => nPropagation c wd s

/-- `_compute_forward_propagation`, solver_algorithms.py:1381-1394. -/
noncomputable def nComputeFwd (c : NCfg n m γ) (s : NSt n m γ) : Option PyErr × NSt n m γ :=
  match nEnsure c c.base.calcDeriv s with
  | (some e, s) => (some e, s)
  | (none, s) =>
    match computeFwd c.base s.core with
    | (some e, k) => (some e, { s with core := k })
    | (none, k) =>
      match nEnsureNoise c c.base.calcDeriv { s with core := k } with
      | (some e, s) => (some e, s)
      | (none, s) =>
        let t := fillTraces [c.base.init] ((s.prop.getD []).map fun ps =>
          (c.base.init :: (fwdLoop ps c.base.init).1, (fwdLoop ps c.base.init).2))
        (t.2, { s with fwd := some t.1 })

/-- `_compute_reversed_propagation`, solver_algorithms.py:1396-1410. -/
noncomputable def nComputeRev (c : NCfg n m γ) (s : NSt n m γ) : Option PyErr × NSt n m γ :=
  match nEnsure c c.base.calcDeriv s with
  | (some e, s) => (some e, s)
  | (none, s) =>
    match computeRev c.base s.core with
    | (some e, k) => (some e, { s with core := k })
    | (none, k) =>
      match nEnsureNoise c c.base.calcDeriv { s with core := k } with
      | (some e, s) => (some e, s)
      | (none, s) =>
        let t := fillTraces [1] ((s.prop.getD []).map fun ps => (1 :: (revLoop ps.reverse 1).1, (revLoop ps.reverse 1).2))
        (t.2, { s with rev := some t.1 })

/-- The 'grape' derivatives of one trace, solver_algorithms.py:1440-1445. -/
noncomputable def grapeTraceCells (cfg : Cfg n m) (times : List ℝ) (u : Pulse) (ps : List (Option (Matrix n n ℂ))) :
    List (List (Option (Option (Matrix n n ℂ)))) × Option PyErr :=
  let r := fill [] ((List.range times.length).map (grapeRow cfg.nCtrl (cfg.dirs times u) times ps))
  ((List.range cfg.nCtrl).map fun c => r.1.map fun row => row.getD c none, r.2)

/-- `_compute_propagation_derivatives`, solver_algorithms.py:1412-1449. -/
noncomputable def nComputeDeriv (c : NCfg n m γ) (s : NSt n m γ) : Option PyErr × NSt n m γ :=
  match c.base.approx with
  | .none => nPropagation c true s
  | .grape =>
    match nEnsure c false s with
    | (some e, s) => (some e, s)
    | (none, s) =>
      match computeDeriv c.base s.core with
      | (some e, k) => (some e, { s with core := k })
      | (none, k) =>
        match nEnsureNoise c false { s with core := k } with
        | (some e, s) => (some e, s)
        | (none, s) =>
          let unsetD : List (List (Option (Option (Matrix n n ℂ)))) :=
            List.replicate c.base.nCtrl (s.core.times.map fun _ => none)
          let t := fillTraces unsetD ((s.prop.getD []).map (grapeTraceCells c.base s.core.times (s.core.amps.getD [])))
          (t.2, { s with deriv := some t.1 })
  | .other => (some .valueError, s)

/-- The pattern of all properties: return what is cached, computing it before if necessary. -/
def nRead {α : Type} (get : NSt n m γ → Option α) (dflt : α) (compute : NSt n m γ → Option PyErr × NSt n m γ)
    (s : NSt n m γ) : Except PyErr α × NSt n m γ :=
  match get s with
  | some v => (.ok v, s)
  | none => match compute s with
    | (some e, s) => (.error e, s)
    | (none, s) => (.ok ((get s).getD dflt), s)

/-- `propagators`, solver_algorithms.py:465-478. -/
noncomputable def nProps (c : NCfg n m γ) := nRead (fun s => s.core.prop) [] (nPropagation c c.base.calcDeriv)
/-- `forward_propagators`, solver_algorithms.py:480-498. -/
noncomputable def nFwd (c : NCfg n m γ) := nRead (fun s => s.core.fwd) [] (nComputeFwd c)
/-- `reversed_propagators`, solver_algorithms.py:516-534. -/
noncomputable def nRev (c : NCfg n m γ) := nRead (fun s => s.core.rev) [] (nComputeRev c)
/-- `frechet_deriv_propagators`, solver_algorithms.py:500-514. -/
noncomputable def nDeriv (c : NCfg n m γ) := nRead (fun s => s.core.deriv) [] (nComputeDeriv c)
/-- `propagators_noise`, solver_algorithms.py:1175-1190. -/
noncomputable def nPropsNoise (c : NCfg n m γ) := nRead (fun s => s.prop) [] (nPropagation c c.base.calcDeriv)
/-- `forward_propagators_noise`, solver_algorithms.py:1192-1212. -/
noncomputable def nFwdNoise (c : NCfg n m γ) := nRead (fun s => s.fwd) [] (nComputeFwd c)
/-- `reversed_propagators_noise`, solver_algorithms.py:1232-1254. -/
noncomputable def nRevNoise (c : NCfg n m γ) := nRead (fun s => s.rev) [] (nComputeRev c)
/-- `frechet_deriv_propagators_noise`, solver_algorithms.py:1214-1230. -/
noncomputable def nDerivNoise (c : NCfg n m γ) := nRead (fun s => s.deriv) [] (nComputeDeriv c)

/-- `reset_cached_propagators`, solver_algorithms.py:1165-1172. -/
def nReset (s : NSt n m γ) : NSt n m γ :=
  { s with core := reset s.core, gens := none, prop := none, deriv := none, fwd := none, rev := none }

open scoped Classical in
/-- `set_optimization_parameters`, solver_algorithms.py:1159-1163, 874-878 and 358-404. -/
noncomputable def nSet (c : NCfg n m γ) (y : Pulse) (s : NSt n m γ) : Option PyErr × NSt n m γ :=
  if s.core.optPars = some y then (none, s)
  else
    let r := setPars c.base y s.core
    (r.1, { nReset s with core := r.2 })

/-- `set_times`, solver_algorithms.py:345-356. -/
def nTimes (c : NCfg n m γ) (τ : List ℝ) (s : NSt n m γ) : NSt n m γ :=
  { nReset s with core := setTimes c.base τ s.core }

/-- State after construction, solver_algorithms.py:1134-1157. -/
def nConstruct (c : NCfg n m γ) (τ : List ℝ) (g : γ) : NSt n m γ :=
  { core := construct c.base τ, gens := none, prop := none, deriv := none, fwd := none, rev := none, rng := g }

/-- What a user can do with the solver. -/
inductive NOp where
  | set (y : Pulse) | times (τ : List ℝ)
  | props | fwd | rev | deriv | propsNoise | fwdNoise | revNoise | derivNoise

/-- Whether the operation reads a result. -/
def NOp.isRead : NOp → Bool
  | .set _ => false
  | .times _ => false
  | _ => true

/-- Forget the value read. -/
def nOutcome {α : Type} (x : Except PyErr α × NSt n m γ) : Option PyErr × NSt n m γ :=
  (match x.1 with | .ok _ => none | .error e => some e, x.2)

/-- Execute one operation: the exception raised, if any, and the new state. -/
noncomputable def nRun (c : NCfg n m γ) : NOp → NSt n m γ → Option PyErr × NSt n m γ
  | .set y, s => nSet c y s
  | .times τ, s => (none, nTimes c τ s)
  | .props, s => nOutcome (nProps c s)
  | .fwd, s => nOutcome (nFwd c s)
  | .rev, s => nOutcome (nRev c s)
  | .deriv, s => nOutcome (nDeriv c s)
  | .propsNoise, s => nOutcome (nPropsNoise c s)
  | .fwdNoise, s => nOutcome (nFwdNoise c s)
  | .revNoise, s => nOutcome (nRevNoise c s)
  | .derivNoise, s => nOutcome (nDerivNoise c s)

/-- Execute a list of operations; the caller catches all exceptions. -/
noncomputable def nExec (c : NCfg n m γ) (ops : List NOp) (s : NSt n m γ) : NSt n m γ :=
  ops.foldl (fun s op => (nRun c op s).2) s

/-- Execute a list of operations; `none` if one of them raises. -/
noncomputable def nExecOk (c : NCfg n m γ) : List NOp → NSt n m γ → Option (NSt n m γ)
  | [], s => some s
  | op :: ops, s => match nRun c op s with
    | (none, s) => nExecOk c ops s
    | (some _, _) => none

end
end Verif.Solver
