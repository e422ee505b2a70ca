import Verif.Solver.Lindblad
import Verif.Solver.CacheThms

/-!
# The caches of the Lindblad solver (solver_algorithms.py:1572-2105 with 874-980 and 345-657)

`Solver/Lindblad.lean` describes the values computed by the Lindblad solver as functions.  Here the solver is an object:
the state of the parent class (`St`, with super operators in place of operators) and the attributes added by the subclass.

`_compute_dyn_gen` of the subclass first lets the parent class store the `d × d` generators in `_dyn_gen` and replaces
them afterwards by super operators.  If the dissipation raises in between, the `d × d` generators stay in `_dyn_gen`;
the fields `smallGen`, `smallProp` and `smallRev` hold what the attributes `_dyn_gen`, `_prop`, `_reversed_prop` hold in
this case.

Simplifications: a dimension larger than one is assumed where a `d × d` propagator is multiplied by a super operator
(numpy raises ValueError); exceptions of functions given by the user are not modelled.
-/

namespace Verif.Solver
open Verif Verif.Operator Matrix
open scoped Kronecker

section
variable {n : Type} [Fintype n] [DecidableEq n]

/-- Constructor arguments of the Lindblad solver, solver_algorithms.py:1801-1859. -/
structure LCfg (n : Type) extends LPar n where
  /-- the numerical routines for `d × d` matrices -/
  small : Lapack n
  calcDeriv : Bool
  approx : ApproxMethod
  tf : List ℝ → Pulse → Except PyErr Pulse
  xTimes : List ℝ → List ℝ
  amp : Pulse → Except PyErr Raw

/-- The attributes and overridable methods the loops of the parent class see, once generators and directions are known. -/
def LCfg.at (c : LCfg n) (g : List (Sup n)) (D : List (List (Sup n))) : Cfg (n × n) (n × n) :=
  { L := c.L, method := c.method, skew := c.skew, calcDeriv := c.calcDeriv, approx := c.approx, init := c.init,
    nCtrl := c.ctrl.length, gens := fun _ => g, dirs := fun _ _ => D, tf := c.tf, xTimes := c.xTimes, amp := c.amp }

/-- The mutable attributes. -/
structure LSt (n : Type) where
  /-- the attributes of the parent class -/
  core : St (n × n) (n × n)
  /-- `_dyn_gen` while it holds `d × d` generators -/
  smallGen : Option (List (Matrix n n ℂ))
  /-- `_prop` computed from these -/
  smallProp : Option (List (Option (Matrix n n ℂ)))
  /-- `_reversed_prop` computed from these -/
  smallRev : Option (List (Matrix n n ℂ))
  /-- `_diss_sup_op` -/
  dissSup : Option (List (Sup n))
  /-- `_diss_sup_op_deriv` -/
  dissDeriv : Option (List (List (Sup n)))
  /-- the list given as `initial_diss_super_op`, whose first entry may be overwritten -/
  initial : Option (List (Sup n))

/-- Whether the dissipation is recalculated for every pulse, solver_algorithms.py:1869-1870. -/
def Diss.hasFuncs (d : Diss n) : Bool := d.prefactor.isSome || d.supOp.isSome

/-- The results before the first exception. -/
def okPrefix {α : Type} : List (Except PyErr α) → List α
  | .ok a :: l => a :: okPrefix l
  | _ => []

/-- What `_diss_sup_op` holds after `_calc_diss_sup_op` raised, solver_algorithms.py:1907-1918: with a prefactor function
the list is filled in place. -/
noncomputable def keptDiss (d : Diss n) (u x : Pulse) : Option (List (Sup n)) :=
  match d.supOp, d.prefactor, constDiss d with
  | none, some f, .ok s => some (okPrefix ((f u x).map (weighted s)))
  | none, some _, .error _ => match d.lindblad with
    | none => some []
    | some _ => none
  | _, _, _ => none

/-- The dissipation as seen by `_compute_dyn_gen`, solver_algorithms.py:2087-2088: cached or calculated. -/
noncomputable def lDiss (c : LCfg n) (u : Pulse) (s : LSt n) : Except PyErr (List (Sup n)) × LSt n :=
  match s.dissSup with
  | some d => (.ok d, s)
  | none =>
    match calcDiss { c.diss with initial := s.initial } s.core.times u (s.core.xPars.getD []) with
    | (.error e, i) =>
      (.error e, { s with initial := i,
                          dissSup := keptDiss { c.diss with initial := s.initial } u (s.core.xPars.getD []) })
    | (.ok l, i) => (.ok l, { s with initial := i, dissSup := some l })

/-- `_compute_dyn_gen`, solver_algorithms.py:2062-2105. -/
noncomputable def lGens (c : LCfg n) (u : Pulse) (s : LSt n) : Option PyErr × LSt n :=
  match lDiss c u { s with smallGen := some (schroedGens c.drift c.ctrl u) } with
  | (.error e, s) => (some e, s)
  | (.ok d, s) =>
    match lindGens c.drift c.ctrl u d with
    | .error e => (some e, s)
    | .ok g => (none, { s with smallGen := none, core := { s.core with dynGen := some g } })

/-- The directions from the derivatives of the dissipation, solver_algorithms.py:2040-2052. -/
def dirsFrom (ctrl : List (Matrix n n ℂ)) (times : List ℝ) : Option (List (List (Sup n))) → List (List (Sup n))
  | none => List.replicate times.length (ctrl.map ctrlSup)
  | some l => l.map fun row => List.zipWith (fun D C => D + C) row (ctrl.map ctrlSup)

/-- `_compute_derivative_directions`, solver_algorithms.py:2014-2052, with the cached derivatives of the dissipation. -/
noncomputable def lDirs (c : LCfg n) (u : Pulse) (s : LSt n) : Except PyErr (List (List (Sup n))) × LSt n :=
  if c.ctrl.length = 0 then (.error .indexError, s)
  else match s.dissDeriv with
  | some l => (.ok (dirsFrom c.ctrl s.core.times (some l)), s)
  | none =>
    match calcDissDeriv { c.diss with initial := s.initial } u (s.core.xPars.getD []) with
    | .error e => (.error e, s)
    | .ok dd => (.ok (dirsFrom c.ctrl s.core.times dd), { s with dissDeriv := dd })

/-- The loops of `_compute_propagation`, solver_algorithms.py:930-953, once the generators are known.  The list of
propagators is created before the directions are computed. -/
noncomputable def lPropagate (c : LCfg n) (wd : Bool) (u : Pulse) (s : LSt n) : Option PyErr × LSt n :=
  if wd then
    match lDirs c u { s with core := { s.core with prop := some (s.core.times.map fun _ => none) } } with
    | (.error e, s) => (some e, s)
    | (.ok D, s) =>
      let r := computePropagation (c.at (s.core.dynGen.getD []) D) true s.core
      (r.1, { s with core := r.2 })
  else
    let r := computePropagation (c.at (s.core.dynGen.getD []) []) false s.core
    (r.1, { s with core := r.2 })

/-- The same loops with `d × d` generators `G`.  `dexp` raises ValueError for a direction of another shape. -/
noncomputable def lPropagateSmall (c : LCfg n) (wd : Bool) (u : Pulse) (G : List (Matrix n n ℂ)) (s : LSt n) :
    Option PyErr × LSt n :=
  if wd then
    match lDirs c u { s with core := { s.core with prop := some (s.core.times.map fun _ => none) } } with
    | (.error e, s) => (some e, s)
    | (.ok D, s) =>
      let s := { s with core := { s.core with deriv := some (c.ctrl.map fun _ => s.core.times.map fun _ => none) } }
      match s.core.times, c.ctrl, G, D with
      | [], _, _, _ => (none, s)
      | _, [], _, _ => (none, s)
      | _, _, _ :: _, (_ :: _) :: _ => (some .valueError, s)
      | _, _, _, _ => (some .indexError, s)
  else
    let cfg : Cfg n n :=
      { L := c.small, method := c.method, skew := c.skew, calcDeriv := c.calcDeriv, approx := c.approx, init := 1,
        nCtrl := c.ctrl.length, gens := fun _ => G, dirs := fun _ _ => [], tf := c.tf, xTimes := c.xTimes, amp := c.amp }
    let r := fill none ((List.range s.core.times.length).map (stepPlain cfg G s.core.times))
    (r.2, { s with smallProp := some r.1 })

/-- `_compute_propagation`, solver_algorithms.py:915-953. -/
noncomputable def lCompute (c : LCfg n) (wd : Bool) (s : LSt n) : Option PyErr × LSt n :=
  match s.core.amps with
  | none => (some .valueError, s)
  | some u =>
    match s.smallGen, s.core.dynGen with
    | some G, _ => lPropagateSmall c wd u G s
    | none, some _ => lPropagate c wd u s
    | none, none =>
      match lGens c u s with
      | (some e, s) => (some e, s)
      | (none, s) => lPropagate c wd u s

/-- `if self._prop is None: self._compute_propagation()`. -/
noncomputable def lEnsureProp (c : LCfg n) (wd : Bool) (s : LSt n) : Option PyErr × LSt n :=
  match s.smallProp, s.core.prop with
  | none, none => lCompute c wd s
  | _, _ => (none, s)

/-- The value of the attribute `_prop`. -/
def lPropVal (s : LSt n) : List (Option (Matrix n n ℂ)) ⊕ List (Option (Sup n)) :=
  match s.smallProp with
  | some p => .inl p
  | none => .inr (s.core.prop.getD [])

/-- Property `propagators`, solver_algorithms.py:465-478. -/
noncomputable def lReadProps (c : LCfg n) (s : LSt n) :
    Except PyErr (List (Option (Matrix n n ℂ)) ⊕ List (Option (Sup n))) × LSt n :=
  match lEnsureProp c c.calcDeriv s with
  | (some e, s) => (.error e, s)
  | (none, s) => (.ok (lPropVal s), s)

/-- Property `forward_propagators`, solver_algorithms.py:480-498 and 632-638. -/
noncomputable def lReadFwd (c : LCfg n) (s : LSt n) : Except PyErr (List (Sup n)) × LSt n :=
  match s.core.fwd with
  | some p => (.ok p, s)
  | none => match lEnsureProp c c.calcDeriv s with
    | (some e, s) => (.error e, s)
    | (none, s) =>
      match s.smallProp with
      | none =>
        let r := computeFwd (c.at (s.core.dynGen.getD []) []) s.core
        (match r.1 with | some e => .error e | none => .ok (r.2.fwd.getD []), { s with core := r.2 })
      | some l =>
        let s := { s with core := { s.core with fwd := some [c.init] } }
        match l with
        | [] => (.ok [c.init], s)
        | none :: _ => (.error .notImplementedError, s)
        | some _ :: _ => (.error .valueError, s)

/-- Property `reversed_propagators`, solver_algorithms.py:516-534 and 640-657. -/
noncomputable def lReadRev (c : LCfg n) (s : LSt n) : Except PyErr (List (Matrix n n ℂ) ⊕ List (Sup n)) × LSt n :=
  match s.smallRev, s.core.rev with
  | some p, _ => (.ok (.inl p), s)
  | none, some p => (.ok (.inr p), s)
  | none, none => match lEnsureProp c c.calcDeriv s with
    | (some e, s) => (.error e, s)
    | (none, s) =>
      match s.smallProp with
      | none =>
        let r := computeRev (c.at (s.core.dynGen.getD []) []) s.core
        (match r.1 with | some e => .error e | none => .ok (.inr (r.2.rev.getD [])), { s with core := r.2 })
      | some [] => (.error .indexError, s)
      | some (none :: _) => (.error .attributeError, s)
      | some (some P :: ps) =>
        let r := revLoop ((some P :: ps).reverse) 1
        (match r.2 with | some e => .error e | none => .ok (.inl (1 :: r.1)), { s with smallRev := some (1 :: r.1) })

/-- `_compute_propagation_derivatives`, solver_algorithms.py:955-980. -/
noncomputable def lComputeDeriv (c : LCfg n) (s : LSt n) : Option PyErr × LSt n :=
  match c.approx with
  | .none => lCompute c true s
  | .grape =>
    match lEnsureProp c false s with
    | (some e, s) => (some e, s)
    | (none, s) =>
      match lDirs c (s.core.amps.getD [])
          { s with core := { s.core with deriv := some (s.core.times.map fun _ => c.ctrl.map fun _ => none) } } with
      | (.error e, s) => (some e, s)
      | (.ok D, s) =>
        match s.smallProp with
        | none =>
          let r := computeDeriv (c.at (s.core.dynGen.getD []) D) s.core
          (r.1, { s with core := r.2 })
        | some _ =>
          match s.core.times, c.ctrl, D with
          | [], _, _ => (none, s)
          | _, [], _ => (none, s)
          | _, _, (_ :: _) :: _ => (some .valueError, s)
          | _, _, _ => (some .indexError, s)
  | .other => (some .valueError, s)

/-- Property `frechet_deriv_propagators`, solver_algorithms.py:500-514. -/
noncomputable def lReadDeriv (c : LCfg n) (s : LSt n) :
    Except PyErr (List (List (Option (Option (Sup n))))) × LSt n :=
  match s.core.deriv with
  | some p => (.ok p, s)
  | none => match lComputeDeriv c s with
    | (some e, s) => (.error e, s)
    | (none, s) => (.ok (s.core.deriv.getD []), s)

/-- `reset_cached_propagators`, solver_algorithms.py:1866-1873, 880-883 and 406-412. -/
def lReset (c : LCfg n) (s : LSt n) : LSt n :=
  { s with core := reset s.core, smallGen := none, smallProp := none, smallRev := none,
           dissSup := if c.diss.hasFuncs then none else s.dissSup,
           dissDeriv := if c.diss.hasFuncs then none else s.dissDeriv }

open scoped Classical in
/-- `set_optimization_parameters`, solver_algorithms.py:1860-1864, 874-878 and 358-404. -/
noncomputable def lSetPars (c : LCfg n) (y : Pulse) (s : LSt n) : Option PyErr × LSt n :=
  if s.core.optPars = some y then (none, s)
  else
    let r := setPars (c.at [] []) y s.core
    (r.1, { lReset c s with core := r.2 })

/-- `set_times`, solver_algorithms.py:345-356. -/
def lSetTimes (c : LCfg n) (τ : List ℝ) (s : LSt n) : LSt n :=
  { lReset c s with core := setTimes (c.at [] []) τ s.core }

/-- State after construction, solver_algorithms.py:1827-1859. -/
def lConstruct (c : LCfg n) (τ : List ℝ) : LSt n :=
  { core := construct (c.at [] []) τ, smallGen := none, smallProp := none, smallRev := none, dissSup := none,
    dissDeriv := none, initial := c.diss.initial }

/-- A state with pulse `y` set on a new solver with grid `τ`. -/
noncomputable def lFresh (c : LCfg n) (τ : List ℝ) (y : Pulse) : LSt n := (lSetPars c y (lConstruct c τ)).2

/-- Forget the value read. -/
def lOutcome {α : Type} (x : Except PyErr α × LSt n) : Option PyErr × LSt n :=
  (match x.1 with | .ok _ => none | .error e => some e, x.2)

/-- Execute one operation: the exception raised, if any, and the new state. -/
noncomputable def lRun (c : LCfg n) : Op → LSt n → Option PyErr × LSt n
  | .set y, s => lSetPars c y s
  | .times τ, s => (none, lSetTimes c τ s)
  | .props, s => lOutcome (lReadProps c s)
  | .fwd, s => lOutcome (lReadFwd c s)
  | .rev, s => lOutcome (lReadRev c s)
  | .deriv, s => lOutcome (lReadDeriv c s)

/-- Execute a list of operations; the caller catches all exceptions. -/
noncomputable def lExec (c : LCfg n) (ops : List Op) (s : LSt n) : LSt n :=
  ops.foldl (fun s op => (lRun c op s).2) s

/-- Execute a list of operations; `none` if one of them raises. -/
noncomputable def lExecOk (c : LCfg n) : List Op → LSt n → Option (LSt n)
  | [], s => some s
  | op :: ops, s => match lRun c op s with
    | (none, s) => lExecOk c ops s
    | (some _, _) => none

/-- All four results can be read as if from the state `s'`. -/
def LSameReads (c : LCfg n) (s s' : LSt n) : Prop :=
  (lReadProps c s).1 = (lReadProps c s').1 ∧ (lReadFwd c s).1 = (lReadFwd c s').1 ∧
  (lReadRev c s).1 = (lReadRev c s').1 ∧ (lReadDeriv c s).1 = (lReadDeriv c s').1

end
end Verif.Solver
