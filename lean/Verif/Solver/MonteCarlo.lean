import Verif.Solver.PropThms

/-!
# The Monte Carlo solver (solver_algorithms.py:983-1569)

The caches behave as in the parent class (C29); here the values are modelled as functions of the transferred times,
the pulse, the transferred parameters and the control amplitudes.
-/

namespace Verif.Solver
open Verif Verif.Operator Matrix

/-- A three dimensional numpy array. -/
structure Arr3 where
  d0 : Nat
  d1 : Nat
  d2 : Nat
  val : Nat → Nat → Nat → ℝ

/-- `np.transpose(a, (2, 1, 0))`. -/
def Arr3.transpose (A : Arr3) : Arr3 := ⟨A.d2, A.d1, A.d0, fun i j k => A.val k j i⟩

/-- The argument `processes`: an integer, `None`, or anything else. (`True` and `1.0` equal 1 in Python and count as
`int 1`.) -/
inductive Procs where
  | int (k : Int) | none | other
  deriving DecidableEq

inductive Mode where
  | serial | parallel | invalid
  deriving DecidableEq

/-- `processes == 1`, `(type(processes) == int and processes > 0) or processes is None`, or neither;
solver_algorithms.py:1334 and 1358-1359. -/
def Procs.mode : Procs → Mode
  | .int k => if k = 1 then .serial else if k > 0 then .parallel else .invalid
  | .none => .parallel
  | .other => .invalid

section
variable {n m : Type} [Fintype n] [DecidableEq n]

/-- Constructor arguments of `SchroedingerSMonteCarlo` (solver_algorithms.py:1015-1124) besides those of the
parent, and what the noise trace generator supplies. -/
structure MC (n m : Type) where
  base : Cfg n m
  hNoise : List (Matrix n n ℂ)
  procs : Procs
  /-- `noise_amplitude_function(noise_samples, optimization_parameters, transferred_parameters, control_amplitudes)` -/
  noiseAmp : Option (Arr3 → Pulse → Pulse → Pulse → Except PyErr Arr3)
  /-- `noise_trace_generator.n_traces` -/
  nTraces : Nat
  /-- `noise_trace_generator.noise_samples`, (operator, trace, time) -/
  samples : Arr3

/-- `self._dyn_gen_noise[n_trace][t] += M`, solver_algorithms.py:1292. -/
def addAt (gs : List (List (Matrix n n ℂ))) (p : Nat × Nat × Matrix n n ℂ) :
    Except PyErr (List (List (Matrix n n ℂ))) :=
  match gs[p.1]? with
  | none => .error .indexError
  | some row => match row[p.2.1]? with
    | none => .error .indexError
    | some G => .ok (gs.set p.1 (row.set p.2.1 (G + p.2.2)))

/-- The additions of the three nested loops in their order, solver_algorithms.py:1289-1293: (trace, time, matrix);
`zip` stops at the shorter of the samples and the noise operators. -/
def noiseUpdates (A : Arr3) (hN : List (Matrix n n ℂ)) : List (Nat × Nat × Matrix n n ℂ) :=
  (List.range A.d0).flatMap fun t => (List.range A.d1).flatMap fun k =>
    List.zipWith (fun (s : ℝ) op => (k, t, (-Complex.I * (s : ℂ)) • op)) ((List.range A.d2).map fun j => A.val t k j) hN

/-- The generators with noise, solver_algorithms.py:1286-1293. -/
def noiseGens (gens : List (Matrix n n ℂ)) (nTraces : Nat) (A : Arr3) (hN : List (Matrix n n ℂ)) :
    Except PyErr (List (List (Matrix n n ℂ))) :=
  (noiseUpdates A hN).foldlM addAt (List.replicate nTraces gens)

/-- The samples after transposition and noise amplitude function, solver_algorithms.py:1274-1284. -/
def noiseAmplitudes (M : MC n m) (y x u : Pulse) : Except PyErr Arr3 :=
  match M.noiseAmp with
  | none => .ok M.samples.transpose
  | some f => f M.samples.transpose y x u

/-- `_compute_dyn_gen_noise`, solver_algorithms.py:1256-1294. -/
def dynGenNoise (M : MC n m) (y x u : Pulse) : Except PyErr (List (List (Matrix n n ℂ))) := do
  let A ← noiseAmplitudes M y x u
  noiseGens (M.base.gens u) M.nTraces A M.hNoise

/-- Propagators and derivatives `[ctrl][t]` of one trace. -/
abbrev TraceOut (n : Type) := List (Option (Matrix n n ℂ)) × List (List (Option (Option (Matrix n n ℂ))))

/-- One trace computed in the same process, solver_algorithms.py:1334-1356 (for the noiseless generators the parent's
loops at 915-953 are the same). -/
noncomputable def traceRun (cfg : Cfg n m) (wd : Bool) (times : List ℝ) (u : Pulse) (g : List (Matrix n n ℂ)) :
    Except PyErr (TraceOut n) :=
  if wd then
    let r := fill (none, []) ((List.range times.length).map (stepDeriv cfg g (cfg.dirs times u) times))
    orErr r.2 (.ok (r.1.map Prod.fst, byControl cfg.nCtrl (r.1.map Prod.snd)))
  else
    let r := fill none ((List.range times.length).map (stepPlain cfg g times))
    orErr r.2 (.ok (r.1, []))

/-- `_compute_matrix_exponentials`, solver_algorithms.py:983-1012: `zip` over generators and times, the remaining cells
stay `None`. -/
noncomputable def matrixExponentials (cfg : Cfg n m) (g : List (Matrix n n ℂ)) (times : List ℝ) :
    Except PyErr (List (Option (Matrix n n ℂ))) :=
  let r := fill none ((g.zip times).map fun p => (Operator.exp cfg.L p.1 (p.2 : ℂ) cfg.method cfg.skew).map some)
  orErr r.2 (.ok (r.1 ++ List.replicate (times.length - r.1.length) none))

/-- Evaluate a list in order, stopping at the first exception. -/
def inOrder {α : Type} (unset : α) (l : List (Except PyErr α)) : Except PyErr (List α) :=
  let r := fill unset l
  orErr r.2 (.ok r.1)

/-- `_compute_propagation`, solver_algorithms.py:1296-1379; `Pool.map` is the map over the list. -/
noncomputable def noiseRun (M : MC n m) (wd : Bool) (times : List ℝ) (y x u : Pulse) :
    Except PyErr (List (TraceOut n)) := do
  let ng ← dynGenNoise M y x u
  let _ ← traceRun M.base wd times u (M.base.gens u)
  match M.procs.mode with
  | .serial => inOrder ([], []) ((List.range M.nTraces).map fun k => traceRun M.base wd times u (ng.getD k []))
  | .parallel =>
    if wd then .error .notImplementedError
    else inOrder ([], []) ((List.range M.nTraces).map fun k =>
      (matrixExponentials M.base (ng.getD k []) times).map fun p => (p, []))
  | .invalid => .error .valueError

/-- One trace of `_compute_forward_propagation`, solver_algorithms.py:1381-1394. -/
def traceFwd (cfg : Cfg n m) (ps : List (Option (Matrix n n ℂ))) : Except PyErr (List (Matrix n m ℂ)) :=
  let r := fwdLoop ps cfg.init
  orErr r.2 (.ok (cfg.init :: r.1))

/-- One trace of `_compute_reversed_propagation`, solver_algorithms.py:1396-1410: starts from the identity. -/
def traceRev (ps : List (Option (Matrix n n ℂ))) : Except PyErr (List (Matrix n n ℂ)) :=
  let r := revLoop ps.reverse 1
  orErr r.2 (.ok (1 :: r.1))

/-- `propagators_noise`, solver_algorithms.py:1177-1192. -/
noncomputable def propsNoise (M : MC n m) (times : List ℝ) (y x u : Pulse) :
    Except PyErr (List (List (Option (Matrix n n ℂ)))) := do
  let r ← noiseRun M M.base.calcDeriv times y x u
  pure (r.map Prod.fst)

/-- `forward_propagators_noise`, solver_algorithms.py:1194-1214; the parent's forward propagation runs first. -/
noncomputable def fwdNoise (M : MC n m) (times : List ℝ) (y x u : Pulse) :
    Except PyErr (List (List (Matrix n m ℂ))) := do
  let ps ← propsNoise M times y x u
  let _ ← specFwd M.base times u
  inOrder [] (ps.map (traceFwd M.base))

/-- `reversed_propagators_noise`, solver_algorithms.py:1234-1254; the parent's reversed propagation runs first and
raises for an empty list of time steps. -/
noncomputable def revNoise (M : MC n m) (times : List ℝ) (y x u : Pulse) :
    Except PyErr (List (List (Matrix n n ℂ))) := do
  let ps ← propsNoise M times y x u
  let _ ← specRev M.base times u
  inOrder [] (ps.map traceRev)

/-- Row-wise sum of the transferred parameters and the samples of one trace; shapes must agree.  (numpy's
broadcasting of a single column is not modelled.) -/
def addNoise (x : Pulse) (A : Arr3) (k : Nat) : Except PyErr Pulse :=
  if x.length = A.d0 ∧ ∀ row ∈ x, row.length = A.d2 then
    .ok (x.zipIdx.map fun p => p.1.zipIdx.map fun q => q.1 + A.val p.2 k q.2)
  else .error .valueError

/-- Samples of one trace of the noise amplitude function of `SchroedingerSMCControlNoise`,
solver_algorithms.py:1543-1547: amplitude function of parameters plus noise, minus the control amplitudes; the result
is assigned to a (time, control) slice, shapes other than that raise ValueError. -/
def controlNoiseTrace (amp : Pulse → Except PyErr Raw) (A : Arr3) (x u : Pulse) (nCtrl k : Nat) : Except PyErr Pulse := do
  let x' ← addNoise x A k
  let a ← amp x'
  if a.ndim = 2 ∧ a.rows.length = u.length ∧ a.cols = nCtrl ∧ a.rows.length = A.d0 then
    pure (List.zipWith (fun r s => List.zipWith (fun (p q : ℝ) => p - q) r s) a.rows u)
  else .error .valueError

/-- The noise amplitude function of `SchroedingerSMCControlNoise`, solver_algorithms.py:1517-1548. -/
def controlNoiseAmp (amp : Pulse → Except PyErr Raw) (nCtrl : Nat) (A : Arr3) (_y x u : Pulse) : Except PyErr Arr3 := do
  let traces ← inOrder [] ((List.range A.d1).map fun k => controlNoiseTrace amp A x u nCtrl k)
  pure ⟨A.d0, A.d1, nCtrl, fun t k c => ((traces.getD k []).getD t []).getD c 0⟩

/-- `SchroedingerSMCControlNoise.__init__`, solver_algorithms.py:1495-1569. -/
def mcControlNoise (p : SPar n m) (procs : Procs) (nTraces : Nat) (samples : Arr3) : MC n m :=
  { base := p.cfg, hNoise := p.ctrl, procs := procs, noiseAmp := some (controlNoiseAmp p.amp p.ctrl.length),
    nTraces := nTraces, samples := samples }

end
end Verif.Solver
