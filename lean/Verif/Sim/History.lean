import Verif.Sim.Model
import Verif.Solver.CacheThms
import Verif.Solver.LindbladCacheThms

/-!
# C102: the results of a simulator do not depend on what was evaluated before (simulator.py:171-290)

Here the solvers of the simulator are the objects with caches of C29 and C99, and a cost function is a program which reads results
from its solver, in any order and as often as it likes, and stops at the first exception.  Several cost functions may share a
solver.

Simplifications (also listed in DESIGN.md): the pulse is always given (`pulse=None` reads an attribute, C58); statistics are left
out (C85, C86); `numeric_gradient` is a sequence of evaluations of the costs (C57); what follows `cost_func.grad()` in the loop of
`wrapped_jac_function` is a function of its value and the pulse (C55).
-/

namespace Verif.Sim.History
open Verif Verif.Solver

/-! ## Model -/

/-- A solver as the simulator and the cost functions use it. -/
structure SolverSys where
  /-- the attributes of the object -/
  σ : Type
  /-- the results which can be read, with the types of their values -/
  Q : Type
  R : Q → Type
  /-- the object after its construction -/
  start : σ
  /-- `set_optimization_parameters` -/
  set : Solver.Pulse → σ → Option PyErr × σ
  /-- reading a property -/
  read : (q : Q) → σ → Except PyErr (R q) × σ

/-- What a cost function does: read a result of its solver and go on with it, or return or raise. -/
inductive Prog (S : SolverSys) (α : Type) where
  | done (r : Except PyErr α)
  | read (q : S.Q) (k : S.R q → Prog S α)

/-- Execution; exceptions of the solver are not caught. -/
def Prog.run {S : SolverSys} {α : Type} : Prog S α → S.σ → Except PyErr α × S.σ
  | .done r, s => (r, s)
  | .read q k, s => match S.read q s with
    | (.error e, s) => (.error e, s)
    | (.ok v, s) => (k v).run s

/-- A cost function object: `costs()` (flattened, simulator.py:223-226), and `grad()` followed by the two chain rules at the pulse
(simulator.py:270-284), with the axes (time, func, par). -/
structure CostFn (S : SolverSys) where
  costs : Prog S (List ℝ)
  jac : Solver.Pulse → Prog S (List (List (List ℝ)))

/-- A simulator: its solvers and its cost functions with the positions of their solvers, simulator.py:115-137. -/
structure Simulator where
  N : Nat
  S : Fin N → SolverSys
  costFuncs : List ((i : Fin N) × CostFn (S i))

section
variable (sim : Simulator)

/-- The states of all solvers. -/
abbrev States := (i : Fin sim.N) → (sim.S i).σ

/-- The solvers after their construction. -/
def start : States sim := fun i => (sim.S i).start

/-- `for solver in self.solvers: solver.set_optimization_parameters(pulse)`, simulator.py:196-197 and 258-259. -/
def setAll (y : Solver.Pulse) : List (Fin sim.N) → States sim → Option PyErr × States sim
  | [], st => (none, st)
  | i :: is, st => match (sim.S i).set y (st i) with
    | (some e, s) => (some e, Function.update st i s)
    | (none, s) => setAll y is (Function.update st i s)

/-- A loop over the cost functions, simulator.py:223-226 and 267-284. -/
def loop {α : Type} (P : (i : Fin sim.N) → CostFn (sim.S i) → Prog (sim.S i) α) :
    List ((i : Fin sim.N) × CostFn (sim.S i)) → States sim → Except PyErr (List α) × States sim
  | [], st => (.ok [], st)
  | ⟨i, F⟩ :: Fs, st => match (P i F).run (st i) with
    | (.error e, s) => (.error e, Function.update st i s)
    | (.ok v, s) => match loop P Fs (Function.update st i s) with
      | (.error e, st) => (.error e, st)
      | (.ok vs, st) => (.ok (v :: vs), st)

/-- A call of the simulator. -/
inductive Call where
  /-- `wrapped_cost_functions(pulse)` -/
  | costs (y : Solver.Pulse)
  /-- `wrapped_jac_function(pulse)` -/
  | jac (y : Solver.Pulse)

/-- The pulse of a call. -/
def Call.pulse : Call → Solver.Pulse
  | .costs y => y
  | .jac y => y

/-- What a call returns. -/
inductive Out where
  | costs (v : List ℝ)
  | jac (v : List (List (List ℝ)))

/-- `Simulator.wrapped_cost_functions`, simulator.py:171-235, and `Simulator.wrapped_jac_function`, 237-290. -/
def call (c : Call) (st : States sim) : Except PyErr Out × States sim :=
  match setAll sim c.pulse (List.finRange sim.N) st with
  | (some e, st) => (.error e, st)
  | (none, st) => match c with
    | .costs _ => match loop sim (fun _ F => F.costs) sim.costFuncs st with
      | (.error e, st) => (.error e, st)
      | (.ok vs, st) => ((Sim.concatenate0 vs).map Out.costs, st)
    | .jac y => match loop sim (fun _ F => F.jac y) sim.costFuncs st with
      | (.error e, st) => (.error e, st)
      | (.ok vs, st) => ((Sim.concatenate1 vs).map Out.jac, st)

/-- A sequence of calls; the caller catches all exceptions. -/
def calls : List Call → States sim → States sim
  | [], st => st
  | c :: cs, st => calls cs (call sim c st).2

/-- The pulses of the calls which raised. -/
def raised : List Call → States sim → List Solver.Pulse
  | [], _ => []
  | c :: cs, st => match (call sim c st).1 with
    | .error _ => c.pulse :: raised cs (call sim c st).2
    | .ok _ => raised cs (call sim c st).2

end

/-! ### The two solvers -/

/-- What can be read. -/
inductive Query where
  | amps
  | props
  | fwd
  | rev
  | deriv

section
variable {n m : Type} [Fintype n] [DecidableEq n]

/-- The values of the Schroedinger solver. -/
def SVal (n m : Type) : Query → Type
  | .amps => Option Solver.Pulse
  | .props => List (Option (Matrix n n ℂ))
  | .fwd => List (Matrix n m ℂ)
  | .rev => List (Matrix n n ℂ)
  | .deriv => List (List (Option (Option (Matrix n n ℂ))))

/-- `SchroedingerSolver` with the time steps `τ` (C29). -/
noncomputable def schroedinger (cfg : Solver.Cfg n m) (τ : List ℝ) : SolverSys where
  σ := Solver.St n m
  Q := Query
  R := SVal n m
  start := construct cfg τ
  set := setPars cfg
  read
    | .amps, s => (.ok s.amps, s)
    | .props, s => readProps cfg s
    | .fwd, s => readFwd cfg s
    | .rev, s => readRev cfg s
    | .deriv, s => readDeriv cfg s

/-- The values of the Lindblad solver. -/
def LVal (n : Type) : Query → Type
  | .amps => Option Solver.Pulse
  | .props => List (Option (Matrix n n ℂ)) ⊕ List (Option (Sup n))
  | .fwd => List (Sup n)
  | .rev => List (Matrix n n ℂ) ⊕ List (Sup n)
  | .deriv => List (List (Option (Option (Sup n))))

/-- `LindbladSolver` with the time steps `τ` (C99). -/
noncomputable def lindblad (c : LCfg n) (τ : List ℝ) : SolverSys where
  σ := LSt n
  Q := Query
  R := LVal n
  start := lConstruct c τ
  set := lSetPars c
  read
    | .amps, s => (.ok s.core.amps, s)
    | .props, s => lReadProps c s
    | .fwd, s => lReadFwd c s
    | .rev, s => lReadRev c s
    | .deriv, s => lReadDeriv c s

end

/-! ## Lawful solvers -/

/-- Specification of a program by the values of the results. -/
def Prog.value {S : SolverSys} {α : Type} (spec : (q : S.Q) → Except PyErr (S.R q)) : Prog S α → Except PyErr α
  | .done r => r
  | .read q k => match spec q with
    | .error e => .error e
    | .ok v => (k v).value spec

/-- A solver whose results are functions of the pulse (`spec`), as long as nothing has been raised since the pulse was set. -/
structure Lawful (S : SolverSys) where
  pulse : S.σ → Option Solver.Pulse
  reach : S.σ → Prop
  good : Solver.Pulse → S.σ → Prop
  accept : Solver.Pulse → Option PyErr
  spec : Solver.Pulse → (q : S.Q) → Except PyErr (S.R q)
  start_reach : reach S.start
  start_pulse : pulse S.start = none
  set_reach : ∀ y s, reach s → reach (S.set y s).2
  set_pulse : ∀ y s, pulse (S.set y s).2 = some y
  set_new : ∀ y s, reach s → pulse s ≠ some y → (S.set y s).1 = accept y ∧ (accept y = none → good y (S.set y s).2)
  set_same : ∀ y s, reach s → pulse s = some y → good y s → (S.set y s).1 = none ∧ good y (S.set y s).2 ∧ accept y = none
  read_reach : ∀ q s, reach s → reach (S.read q s).2
  read_pulse : ∀ q s, pulse (S.read q s).2 = pulse s
  read_good : ∀ y q s, reach s → good y s → (S.read q s).1 = spec y q ∧ ((∃ v, spec y q = .ok v) → good y (S.read q s).2)

theorem Lawful.run_reach {S : SolverSys} (L : Lawful S) {α : Type} (P : Prog S α) (s : S.σ) (h : L.reach s) :
    L.reach (P.run s).2 ∧ L.pulse (P.run s).2 = L.pulse s := by
  induction P generalizing s with
  | done r => exact ⟨h, rfl⟩
  | read q k ih =>
    have h1 := L.read_reach q s h
    have h2 := L.read_pulse q s
    simp only [Prog.run]
    cases hr : S.read q s with
    | mk r s' =>
      rw [hr] at h1 h2
      cases r with
      | error e => exact ⟨h1, h2⟩
      | ok v => obtain ⟨a, b⟩ := ih v s' h1; exact ⟨a, b.trans h2⟩

theorem Lawful.run_good {S : SolverSys} (L : Lawful S) {α : Type} (P : Prog S α) (y : Solver.Pulse) (s : S.σ) (hr : L.reach s)
    (h : L.good y s) :
    (P.run s).1 = P.value (L.spec y) ∧ ((∃ v, (P.run s).1 = .ok v) → L.good y (P.run s).2) := by
  induction P generalizing s with
  | done r => exact ⟨rfl, fun _ => h⟩
  | read q k ih =>
    obtain ⟨h1, h2⟩ := L.read_good y q s hr h
    have h3 := L.read_reach q s hr
    simp only [Prog.run, Prog.value]
    cases hs : S.read q s with
    | mk r s' =>
      rw [hs] at h1 h2 h3
      simp only at h1
      rw [← h1]
      cases r with
      | error e => exact ⟨rfl, fun ⟨v, hv⟩ => by cases hv⟩
      | ok v => exact ih v s' h3 (h2 ⟨v, h1.symm⟩)

section
variable {sim : Simulator} (L : ∀ i, Lawful (sim.S i))

/-- What is known after any calls: a solver either holds a pulse of a call which raised, or its results are those of its pulse. -/
def Known (bad : List Solver.Pulse) (st : States sim) : Prop :=
  ∀ i, (L i).reach (st i) ∧ ∀ y, (L i).pulse (st i) = some y → y ∈ bad ∨ (L i).good y (st i)

/-- All solvers hold the pulse. -/
def Ready (y : Solver.Pulse) (st : States sim) : Prop :=
  ∀ i, (L i).reach (st i) ∧ (L i).pulse (st i) = some y ∧ (L i).good y (st i)

theorem known_start : Known L [] (start sim) :=
  fun i => ⟨(L i).start_reach, fun y h => by rw [show (L i).pulse (start sim i) = none from (L i).start_pulse] at h; cases h⟩

theorem Known.mono {bad bad' : List Solver.Pulse} (hb : ∀ y ∈ bad, y ∈ bad') {st : States sim} (h : Known L bad st) : Known L bad' st :=
  fun i => ⟨(h i).1, fun y hy => ((h i).2 y hy).imp (hb y) id⟩

theorem Ready.known {y : Solver.Pulse} {st : States sim} (h : Ready L y st) (bad : List Solver.Pulse) : Known L bad st :=
  fun i => ⟨(h i).1, fun y' hy' => by
    have := (h i).2.1.symm.trans hy'
    simp only [Option.some.injEq] at this
    subst this
    exact .inr (h i).2.2⟩

theorem Known.update {bad : List Solver.Pulse} {st : States sim} (h : Known L bad st) (i : Fin sim.N) (s : (sim.S i).σ)
    (h1 : (L i).reach s) (h2 : ∀ y, (L i).pulse s = some y → y ∈ bad ∨ (L i).good y s) : Known L bad (Function.update st i s) := by
  intro j
  by_cases hj : j = i
  · subst hj; rw [Function.update_self]; exact ⟨h1, h2⟩
  · rw [Function.update_of_ne hj]; exact h j

/-! ### Setting the pulse -/

/-- The exception of the first solver which does not accept the pulse. -/
def acceptAll (y : Solver.Pulse) : List (Fin sim.N) → Option PyErr
  | [] => none
  | i :: is => match (L i).accept y with
    | some e => some e
    | none => acceptAll y is

/-- Setting a pulse for which no call has raised. -/
theorem setAll_fresh {bad : List Solver.Pulse} (y : Solver.Pulse) (hy : y ∉ bad) : ∀ (is : List (Fin sim.N)) (st : States sim),
    is.Nodup → Known L bad st → (setAll sim y is st).1 = acceptAll L y is ∧
      Known L (y :: bad) (setAll sim y is st).2 ∧
      ((setAll sim y is st).1 = none →
        (∀ i ∈ is, (L i).reach ((setAll sim y is st).2 i) ∧ (L i).pulse ((setAll sim y is st).2 i) = some y ∧
          (L i).good y ((setAll sim y is st).2 i)) ∧ ∀ i, i ∉ is → (setAll sim y is st).2 i = st i)
  | [], st, _, h => ⟨rfl, h.mono L fun z hz => List.mem_cons_of_mem _ hz, fun _ => ⟨by simp, fun _ _ => rfl⟩⟩
  | i :: is, st, hn, h => by
    obtain ⟨hi, hn⟩ := List.nodup_cons.1 hn
    have hset : ((sim.S i).set y (st i)).1 = (L i).accept y ∧
        ((L i).accept y = none → (L i).good y ((sim.S i).set y (st i)).2) := by
      by_cases hp : (L i).pulse (st i) = some y
      · obtain ⟨a, b, c⟩ := (L i).set_same y (st i) (h i).1 hp (((h i).2 y hp).resolve_left hy)
        exact ⟨a.trans c.symm, fun _ => b⟩
      · exact (L i).set_new y (st i) (h i).1 hp
    have hr := (L i).set_reach y (st i) (h i).1
    have hp := (L i).set_pulse y (st i)
    simp only [setAll, acceptAll]
    cases hs : (sim.S i).set y (st i) with
    | mk r s =>
      rw [hs] at hset hr hp
      simp only at hset hr hp
      cases r with
      | some e =>
        rw [← hset.1]
        refine ⟨rfl, ?_, fun h => by cases h⟩
        refine (h.mono L fun z hz => List.mem_cons_of_mem _ hz).update L i s hr fun z hz => .inl ?_
        have := hp.symm.trans hz
        simp only [Option.some.injEq] at this
        simp [this]
      | none =>
        have hg := hset.2 hset.1.symm
        have hk : Known L bad (Function.update st i s) := h.update L i s hr fun z hz => .inr (by
          have := hp.symm.trans hz
          simp only [Option.some.injEq] at this
          rw [← this]; exact hg)
        obtain ⟨a, b, c⟩ := setAll_fresh y hy is (Function.update st i s) hn hk
        rw [← hset.1]
        refine ⟨a, b, fun hnone => ?_⟩
        obtain ⟨c1, c2⟩ := c hnone
        refine ⟨fun j hj => ?_, fun j hj => ?_⟩
        · rcases List.mem_cons.1 hj with rfl | hj
          · rw [c2 j hi, Function.update_self]; exact ⟨hr, hp, hg⟩
          · exact c1 j hj
        · rw [c2 j fun h => hj (List.mem_cons_of_mem _ h), Function.update_of_ne fun h => hj (by rw [h]; exact List.mem_cons_self)]

/-- Setting any pulse. -/
theorem setAll_any {bad : List Solver.Pulse} (y : Solver.Pulse) (hy : y ∈ bad) : ∀ (is : List (Fin sim.N)) (st : States sim),
    Known L bad st → Known L bad (setAll sim y is st).2
  | [], st, h => h
  | i :: is, st, h => by
    have hr := (L i).set_reach y (st i) (h i).1
    have hp := (L i).set_pulse y (st i)
    have hk : Known L bad (Function.update st i ((sim.S i).set y (st i)).2) := h.update L i _ hr fun z hz => .inl (by
      have := hp.symm.trans hz
      simp only [Option.some.injEq] at this
      rw [← this]; exact hy)
    simp only [setAll]
    cases hs : (sim.S i).set y (st i) with
    | mk r s =>
      rw [hs] at hk
      cases r with
      | some e => exact hk
      | none => exact setAll_any y hy is _ hk

/-! ### The loops -/

/-- Specification of a loop over the cost functions. -/
def loopValue {α : Type} (P : (i : Fin sim.N) → CostFn (sim.S i) → Prog (sim.S i) α) (y : Solver.Pulse) :
    List ((i : Fin sim.N) × CostFn (sim.S i)) → Except PyErr (List α)
  | [] => .ok []
  | ⟨i, F⟩ :: Fs => match (P i F).value ((L i).spec y) with
    | .error e => .error e
    | .ok v => match loopValue P y Fs with
      | .error e => .error e
      | .ok vs => .ok (v :: vs)

theorem loop_good {α : Type} (P : (i : Fin sim.N) → CostFn (sim.S i) → Prog (sim.S i) α) (y : Solver.Pulse) :
    ∀ (Fs : List ((i : Fin sim.N) × CostFn (sim.S i))) (st : States sim), (∀ i, (L i).reach (st i) ∧ (L i).good y (st i)) →
      (loop sim P Fs st).1 = loopValue L P y Fs ∧
      ((∃ v, (loop sim P Fs st).1 = .ok v) → ∀ i, (L i).good y ((loop sim P Fs st).2 i))
  | [], st, h => ⟨rfl, fun _ i => (h i).2⟩
  | ⟨i, F⟩ :: Fs, st, h => by
    obtain ⟨r1, -⟩ := (L i).run_reach (P i F) (st i) (h i).1
    obtain ⟨g1, g2⟩ := (L i).run_good (P i F) y (st i) (h i).1 (h i).2
    simp only [loop, loopValue]
    rw [← g1]
    cases hs : (P i F).run (st i) with
    | mk r s =>
      rw [hs] at r1 g1 g2
      cases r with
      | error e => exact ⟨rfl, fun ⟨v, hv⟩ => by cases hv⟩
      | ok v =>
        have hR : ∀ j, (L j).reach (Function.update st i s j) ∧ (L j).good y (Function.update st i s j) := by
          intro j
          by_cases hj : j = i
          · subst hj; rw [Function.update_self]; exact ⟨r1, g2 ⟨v, rfl⟩⟩
          · rw [Function.update_of_ne hj]; exact h j
        obtain ⟨a, b⟩ := loop_good P y Fs _ hR
        simp only
        rw [← a]
        cases hl : loop sim P Fs (Function.update st i s) with
        | mk r' st' =>
          rw [hl] at b
          cases r' with
          | error e => exact ⟨rfl, fun ⟨v, hv⟩ => by cases hv⟩
          | ok vs => exact ⟨rfl, fun _ => b ⟨vs, rfl⟩⟩

/-- A loop keeps the pulses of the solvers. -/
theorem loop_any {α : Type} (P : (i : Fin sim.N) → CostFn (sim.S i) → Prog (sim.S i) α) :
    ∀ (Fs : List ((i : Fin sim.N) × CostFn (sim.S i))) (st : States sim), (∀ i, (L i).reach (st i)) →
      ∀ i, (L i).reach ((loop sim P Fs st).2 i) ∧ (L i).pulse ((loop sim P Fs st).2 i) = (L i).pulse (st i)
  | [], st, h => fun i => ⟨h i, rfl⟩
  | ⟨i, F⟩ :: Fs, st, h => by
    obtain ⟨r1, r2⟩ := (L i).run_reach (P i F) (st i) (h i)
    have hu : ∀ j, (L j).reach (Function.update st i ((P i F).run (st i)).2 j) ∧
        (L j).pulse (Function.update st i ((P i F).run (st i)).2 j) = (L j).pulse (st j) := by
      intro j
      by_cases hj : j = i
      · subst hj; rw [Function.update_self]; exact ⟨r1, r2⟩
      · rw [Function.update_of_ne hj]; exact ⟨h j, rfl⟩
    simp only [loop]
    cases hs : (P i F).run (st i) with
    | mk r s =>
      rw [hs] at hu
      cases r with
      | error e => exact hu
      | ok v =>
        have := loop_any P Fs (Function.update st i s) fun j => (hu j).1
        simp only
        cases hl : loop sim P Fs (Function.update st i s) with
        | mk r' st' =>
          rw [hl] at this
          cases r' <;> exact fun j => ⟨(this j).1, (this j).2.trans (hu j).2⟩

theorem loop_ready {α : Type} (P : (i : Fin sim.N) → CostFn (sim.S i) → Prog (sim.S i) α) (y : Solver.Pulse)
    (Fs : List ((i : Fin sim.N) × CostFn (sim.S i))) (st : States sim) (h : Ready L y st) :
    (loop sim P Fs st).1 = loopValue L P y Fs ∧ ((∃ v, (loop sim P Fs st).1 = .ok v) → Ready L y (loop sim P Fs st).2) := by
  obtain ⟨a, b⟩ := loop_good L P y Fs st fun i => ⟨(h i).1, (h i).2.2⟩
  have c := loop_any L P Fs st fun i => (h i).1
  exact ⟨a, fun hv i => ⟨(c i).1, (c i).2.trans (h i).2.1, b hv i⟩⟩

/-- Specification of a call: a function of the pulse. -/
def callValue (c : Call) : Except PyErr Out :=
  match acceptAll L c.pulse (List.finRange sim.N) with
  | some e => .error e
  | none => match c with
    | .costs y => match loopValue L (fun _ F => F.costs) y sim.costFuncs with
      | .error e => .error e
      | .ok vs => (Sim.concatenate0 vs).map Out.costs
    | .jac y => match loopValue L (fun _ F => F.jac y) y sim.costFuncs with
      | .error e => .error e
      | .ok vs => (Sim.concatenate1 vs).map Out.jac

/-- A call with a pulse for which no call has raised. -/
theorem call_fresh {bad : List Solver.Pulse} (c : Call) (hc : c.pulse ∉ bad) (st : States sim) (h : Known L bad st) :
    (call sim c st).1 = callValue L c ∧ ((∃ v, (call sim c st).1 = .ok v) → Ready L c.pulse (call sim c st).2) := by
  obtain ⟨a, b, d⟩ := setAll_fresh L c.pulse hc (List.finRange sim.N) st (List.nodup_finRange _) h
  unfold call callValue
  rw [← a]
  cases hs : setAll sim c.pulse (List.finRange sim.N) st with
  | mk r st' =>
    rw [hs] at d
    cases r with
    | some e => exact ⟨rfl, fun ⟨v, hv⟩ => by cases hv⟩
    | none =>
      have hR : Ready L c.pulse st' := fun i => (d rfl).1 i (List.mem_finRange i)
      cases c with
      | costs y =>
        obtain ⟨l1, l2⟩ := loop_ready L (fun _ F => F.costs) y sim.costFuncs st' hR
        simp only
        rw [← l1]
        cases hl : loop sim (fun _ F => F.costs) sim.costFuncs st' with
        | mk r' st'' =>
          rw [hl] at l2
          cases r' with
          | error e => exact ⟨rfl, fun ⟨v, hv⟩ => by cases hv⟩
          | ok vs => exact ⟨rfl, fun _ => l2 ⟨vs, rfl⟩⟩
      | jac y =>
        obtain ⟨l1, l2⟩ := loop_ready L (fun _ F => F.jac y) y sim.costFuncs st' hR
        simp only
        rw [← l1]
        cases hl : loop sim (fun _ F => F.jac y) sim.costFuncs st' with
        | mk r' st'' =>
          rw [hl] at l2
          cases r' with
          | error e => exact ⟨rfl, fun ⟨v, hv⟩ => by cases hv⟩
          | ok vs => exact ⟨rfl, fun _ => l2 ⟨vs, rfl⟩⟩

/-- Any call, when its pulse counts as bad afterwards. -/
theorem call_any {bad : List Solver.Pulse} (c : Call) (hc : c.pulse ∈ bad) (st : States sim) (h : Known L bad st) :
    Known L bad (call sim c st).2 := by
  have hset : ∀ (is : List (Fin sim.N)) (st : States sim), (∀ i, (L i).reach (st i)) → ((setAll sim c.pulse is st).1 = none →
      ∀ i, (i ∈ is ∨ (L i).pulse (st i) = some c.pulse) → (L i).pulse ((setAll sim c.pulse is st).2 i) = some c.pulse) := by
    intro is
    induction is with
    | nil => intro st _ _ i hi; simpa [setAll] using hi
    | cons j is ih =>
      intro st hr hn i hi
      have hp := (L j).set_pulse c.pulse (st j)
      have hre := (L j).set_reach c.pulse (st j) (hr j)
      simp only [setAll] at hn ⊢
      cases hs : (sim.S j).set c.pulse (st j) with
      | mk r s =>
        rw [hs] at hp hre
        simp only [hs] at hn ⊢
        cases r with
        | some e => cases hn
        | none =>
          simp only at hn ⊢
          refine ih _ (fun k => ?_) hn i ?_
          · by_cases hk : k = j
            · subst hk; rw [Function.update_self]; exact hre
            · rw [Function.update_of_ne hk]; exact hr k
          · by_cases hk : i = j
            · subst hk; rw [Function.update_self]; exact .inr hp
            · rw [Function.update_of_ne hk]
              exact hi.imp (fun h => (List.mem_cons.1 h).resolve_left hk) id
  have hk := setAll_any L c.pulse hc (List.finRange sim.N) st h
  have hp := hset (List.finRange sim.N) st fun i => (h i).1
  unfold call
  cases hs : setAll sim c.pulse (List.finRange sim.N) st with
  | mk r st' =>
    rw [hs] at hk hp
    cases r with
    | some e => exact hk
    | none =>
      have hp' : ∀ i, (L i).pulse (st' i) = some c.pulse := fun i => hp rfl i (.inl (List.mem_finRange i))
      have key : ∀ st'' : States sim, (∀ i, (L i).reach (st'' i) ∧ (L i).pulse (st'' i) = (L i).pulse (st' i)) → Known L bad st'' := by
        intro st'' h'' i
        refine ⟨(h'' i).1, fun y hy => .inl ?_⟩
        have := (((h'' i).2.trans (hp' i)).symm.trans hy)
        simp only [Option.some.injEq] at this
        rw [← this]; exact hc
      cases c with
      | costs y =>
        have := loop_any L (fun _ F => F.costs) sim.costFuncs st' fun i => (hk i).1
        simp only
        cases hl : loop sim (fun _ F => F.costs) sim.costFuncs st' with
        | mk r' st'' => rw [hl] at this; cases r' <;> exact key _ this
      | jac y =>
        have := loop_any L (fun _ F => F.jac y) sim.costFuncs st' fun i => (hk i).1
        simp only
        cases hl : loop sim (fun _ F => F.jac y) sim.costFuncs st' with
        | mk r' st'' => rw [hl] at this; cases r' <;> exact key _ this

theorem known_calls : ∀ (cs : List Call) (bad : List Solver.Pulse) (st : States sim), Known L bad st →
    Known L (bad ++ raised sim cs st) (calls sim cs st)
  | [], bad, st, h => by simpa [raised, calls] using h
  | c :: cs, bad, st, h => by
    simp only [raised, calls]
    cases hr : (call sim c st).1 with
    | error e =>
      have := known_calls cs (bad ++ [c.pulse]) _ (call_any L c (by simp) st (h.mono L fun y hy => by simp [hy]))
      simpa using this
    | ok v =>
      simp only
      by_cases hc : c.pulse ∈ bad
      · exact known_calls cs bad _ (call_any L c hc st h)
      · exact known_calls cs bad _ (((call_fresh L c hc st h).2 ⟨v, hr⟩).known L bad)

/-- A call after any history in which no call with this pulse has raised. -/
theorem call_history {sim : Simulator} (L : ∀ i, Lawful (sim.S i)) (cs : List Call) (c : Call) (hc : c.pulse ∉ raised sim cs (start sim)) :
    (call sim c (calls sim cs (start sim))).1 = (call sim c (start sim)).1 := by
  have h1 := known_calls L cs [] (start sim) (known_start L)
  rw [(call_fresh L c (by simpa using hc) _ h1).1, (call_fresh L c (bad := []) (by simp) _ (known_start L)).1]

end

/-! ## The solvers are lawful -/

section
variable {n m : Type} [Fintype n] [DecidableEq n]

theorem setPars_fst (cfg : Solver.Cfg n m) (y : Solver.Pulse) (s s' : Solver.St n m) (h : s.optPars ≠ some y) (h' : s'.optPars ≠ some y)
    (h1 : s.tau = s'.tau) (h2 : s.times = s'.times) : (setPars cfg y s).1 = (setPars cfg y s').1 := by
  unfold setPars
  rw [if_neg h, if_neg h']
  simp only [Solver.reset, h1, h2]
  cases cfg.tf s'.tau y with
  | error e => rfl
  | ok x =>
    simp only
    cases cfg.amp x with
    | error e => rfl
    | ok u => simp only; split <;> rfl

theorem setPars_same (cfg : Solver.Cfg n m) (y : Solver.Pulse) (s : Solver.St n m) (h : s.optPars = some y) :
    setPars cfg y s = (none, s) := by
  rw [setPars, if_pos h]

theorem setPars_optPars (cfg : Solver.Cfg n m) (y : Solver.Pulse) (s : Solver.St n m) : (setPars cfg y s).2.optPars = some y := by
  by_cases h : s.optPars = some y
  · rw [setPars_same cfg y s h]; exact h
  · unfold setPars
    rw [if_neg h]
    simp only [Solver.reset]
    cases cfg.tf s.tau y with
    | error e => rfl
    | ok x =>
      simp only
      cases cfg.amp x with
      | error e => rfl
      | ok u => simp only; split <;> rfl

/-- The results of the solver are those of the pulse. -/
def SGood (cfg : Solver.Cfg n m) (τ : List ℝ) (y : Solver.Pulse) (s : Solver.St n m) : Prop :=
  ∃ u, ampsOf cfg τ y = some u ∧ Solver.Inv cfg u s

theorem schroedinger_read (cfg : Solver.Cfg n m) (hst : Stable cfg) (τ : List ℝ) (y : Solver.Pulse) (q : Query) (s : Solver.St n m)
    (ht : s.times = cfg.xTimes τ) (h : SGood cfg τ y s) :
    ((schroedinger cfg τ).read q s).1 = ((schroedinger cfg τ).read q (fresh cfg τ y)).1 ∧
      ((∃ v, ((schroedinger cfg τ).read q s).1 = .ok v) → SGood cfg τ y ((schroedinger cfg τ).read q s).2) := by
  obtain ⟨u, hu, hI⟩ := h
  obtain ⟨hF, hFt⟩ := fresh_inv cfg τ y u hu
  have hs := hI.sameReads hst hF (by rw [ht, hFt])
  cases q with
  | amps => exact ⟨congrArg Except.ok (hI.amps.trans hF.amps.symm), fun _ => ⟨u, hu, hI⟩⟩
  | props => exact ⟨hs.1, fun hv => ⟨u, hu, ((readProps_ok hst hI).2 hv).1⟩⟩
  | fwd => exact ⟨hs.2.1, fun hv => ⟨u, hu, ((readFwd_ok hst hI).2 hv).1⟩⟩
  | rev => exact ⟨hs.2.2.1, fun hv => ⟨u, hu, ((readRev_ok hst hI).2 hv).1⟩⟩
  | deriv => exact ⟨hs.2.2.2, fun hv => ⟨u, hu, ((readDeriv_ok hst hI).2 hv).1⟩⟩

/-- The Schroedinger solver. -/
noncomputable def lawfulSchroedinger (cfg : Solver.Cfg n m) (hst : Stable cfg) (τ : List ℝ) : Lawful (schroedinger cfg τ) where
  pulse s := s.optPars
  reach s := s.tau = τ ∧ s.times = cfg.xTimes τ
  good := SGood cfg τ
  accept y := (setPars cfg y (construct cfg τ)).1
  spec y q := ((schroedinger cfg τ).read q (fresh cfg τ y)).1
  start_reach := ⟨rfl, rfl⟩
  start_pulse := rfl
  set_reach y s h := by
    obtain ⟨a, b⟩ := frame_setPars cfg y s
    exact ⟨a.trans h.1, b.trans h.2⟩
  set_pulse y s := setPars_optPars cfg y s
  set_new y s h hp := by
    have h0 : (construct cfg τ).optPars ≠ some y := by simp [construct_facts]
    have he := setPars_fst cfg y s (construct cfg τ) hp h0 h.1 h.2
    refine ⟨he, fun hn => ?_⟩
    obtain ⟨a, -, -, -, e, -⟩ := setPars_new cfg y s hp (by rw [h.1, h.2])
    obtain ⟨u, hu⟩ := a.1 (he.trans hn)
    exact ⟨u, h.1 ▸ hu, e u hu⟩
  set_same y s h hp hg := by
    obtain ⟨u, hu, hI⟩ := hg
    have hs : (schroedinger cfg τ).set y s = (none, s) := setPars_same cfg y s hp
    obtain ⟨a, -⟩ := setPars_new cfg y (construct cfg τ) (by simp [construct_facts]) rfl
    exact ⟨by rw [hs], by rw [hs]; exact ⟨u, hu, hI⟩, a.2 ⟨u, hu⟩⟩
  read_reach q s h := by
    have : Frame s ((schroedinger cfg τ).read q s).2 := by
      cases q with
      | amps => exact ⟨rfl, rfl, rfl, rfl⟩
      | props => exact frame_readProps cfg s
      | fwd => exact frame_readFwd cfg s
      | rev => exact frame_readRev cfg s
      | deriv => exact frame_readDeriv cfg s
    exact ⟨this.1.trans h.1, this.2.1.trans h.2⟩
  read_pulse q s := by
    cases q with
    | amps => rfl
    | props => exact (frame_readProps cfg s).2.2.1
    | fwd => exact (frame_readFwd cfg s).2.2.1
    | rev => exact (frame_readRev cfg s).2.2.1
    | deriv => exact (frame_readDeriv cfg s).2.2.1
  read_good y q s hr h := by
    obtain ⟨a, b⟩ := schroedinger_read cfg hst τ y q s hr.2 h
    exact ⟨a, fun hv => b (by rw [a]; exact hv)⟩

theorem lSetPars_same (c : LCfg n) (y : Solver.Pulse) (s : LSt n) (h : s.core.optPars = some y) : lSetPars c y s = (none, s) := by
  rw [lSetPars, if_pos h]

/-- The Lindblad solver, when the results of every accepted pulse can be computed. -/
noncomputable def lawfulLindblad (c : LCfg n) (hpd : c.diss.Paired) (τ : List ℝ)
    (hc : ∀ y x u, Accepts c τ y x u → ∃ g D, Computable c (c.xTimes τ) u x g D ∧ Stable (c.at g D)) : Lawful (lindblad c τ) where
  pulse s := s.core.optPars
  reach s := s.core.tau = τ ∧ s.core.times = c.xTimes τ ∧ DissInv c s
  good y := LTracked c τ (some y)
  accept y := (lSetPars c y (lConstruct c τ)).1
  spec y q := ((lindblad c τ).read q (lFresh c τ y)).1
  start_reach := ⟨rfl, rfl, dissInv_construct c τ⟩
  start_pulse := rfl
  set_reach y s h := by
    have hf : (lSetPars c y s).2.core.tau = s.core.tau ∧ (lSetPars c y s).2.core.times = s.core.times := by
      by_cases hy : s.core.optPars = some y
      · rw [lSetPars_same c y s hy]; exact ⟨rfl, rfl⟩
      · unfold lSetPars; rw [if_neg hy]; exact frame_setPars _ y _
    have hI := (exec_inv c hpd s.core.times.length [.set y] (by simp) s (by rw [h.1, h.2.1]) rfl h.2.2).2.2
    exact ⟨hf.1.trans h.1, hf.2.trans h.2.1, hI⟩
  set_pulse y s := by
    show (lSetPars c y s).2.core.optPars = some y
    by_cases h : s.core.optPars = some y
    · rw [lSetPars_same c y s h]; exact h
    · unfold lSetPars
      rw [if_neg h]
      exact setPars_optPars _ y _
  set_new y s h hp := by
    have hset : (lSetPars c y s).1 = (setPars (c.at [] []) y s.core).1 := by unfold lSetPars; rw [if_neg hp]
    have h0 : (lConstruct c τ).core.optPars ≠ some y := by simp [lConstruct, construct, setTimes, Solver.reset]
    have hset0 : (lSetPars c y (lConstruct c τ)).1 = (setPars (c.at [] []) y (lConstruct c τ).core).1 := by
      unfold lSetPars; rw [if_neg h0]
    have he : (lSetPars c y s).1 = (lSetPars c y (lConstruct c τ)).1 := by
      rw [hset, hset0]; exact setPars_fst _ y _ _ hp h0 h.1 h.2.1
    refine ⟨he, fun hn => ?_⟩
    have ht : s.core.times = c.xTimes s.core.tau := by rw [h.1, h.2.1]
    obtain ⟨a, -⟩ := setPars_new (c.at [] []) y s.core hp ht
    obtain ⟨u, hu⟩ := a.mp (hset.symm.trans (he.trans hn))
    have hx : ∃ x, c.tf s.core.tau y = .ok x := by
      unfold ampsOf at hu
      cases htf : c.tf s.core.tau y with
      | ok x => exact ⟨x, rfl⟩
      | error e => rw [show (c.at [] []).tf s.core.tau y = .error e from htf] at hu; simp at hu
    obtain ⟨x, hx⟩ := hx
    have hnew := fun g D => lSetPars_new h.2.2 ht hp ⟨hx, hu⟩ g D
    have hI := (exec_inv c hpd s.core.times.length [.set y] (by simp) s ht rfl h.2.2).2.2
    exact ⟨(hnew [] []).2.2.2.2.1.trans h.1, (hnew [] []).2.2.2.1.trans h.2.1, (hnew [] []).2.2.2.2.2, hI, x, u, h.1 ▸ ⟨hx, hu⟩,
      (hnew [] []).2.1, fun g D _ => (hnew g D).2.2.1⟩
  set_same y s h hp hg := by
    have hs : (lindblad c τ).set y s = (none, s) := lSetPars_same c y s hp
    obtain ⟨-, -, -, -, x, u, hacc, -⟩ := id hg
    exact ⟨by rw [hs], by rw [hs]; exact hg, (lSetPars_new (dissInv_construct c τ) rfl (y := y) (x := x) (u := u)
      (by simp [lConstruct, construct, setTimes, Solver.reset]) hacc [] []).1⟩
  read_reach q s h := by
    have : Pres c s ((lindblad c τ).read q s).2 := by
      cases q with
      | amps => exact Pres.refl c s
      | props => exact pres_lReadProps hpd s
      | fwd => exact pres_lReadFwd hpd s
      | rev => exact pres_lReadRev hpd s
      | deriv => exact pres_lReadDeriv hpd s
    exact ⟨this.1.trans h.1, this.2.1.trans h.2.1, this.2.2.2 h.2.2⟩
  read_pulse q s := by
    cases q with
    | amps => rfl
    | props => exact (pres_lReadProps hpd s).2.2.1
    | fwd => exact (pres_lReadFwd hpd s).2.2.1
    | rev => exact (pres_lReadRev hpd s).2.2.1
    | deriv => exact (pres_lReadDeriv hpd s).2.2.1
  read_good y q s hr h := by
    obtain ⟨-, h2, -, -, x, u, hacc, hS, hI⟩ := id h
    obtain ⟨g, D, hgD, hst⟩ := hc y x u hacc
    obtain ⟨f1, f2, f3⟩ := lFresh_inv hacc g D
    obtain ⟨e1, e2, e3, e4⟩ := lSameReads hpd hst hS f1 (hI g D hgD) f2 (by rw [h2, f3]) (by rw [h2]; exact hgD)
    have hstep := fun op hop s' => lTracked_step hpd hc h op hop (s' := s')
    have hout : ∀ {α : Type} {r : Except PyErr α × LSt n}, (∃ v, r.1 = .ok v) → lOutcome r = (none, r.2) := by
      rintro α ⟨r, s'⟩ ⟨v, rfl⟩; rfl
    cases q with
    | amps => exact ⟨congrArg Except.ok ((hI g D hgD).amps.trans f2.amps.symm), fun _ => h⟩
    | props => exact ⟨e1, fun hv => hstep .props (by simp) _ (hout (by rw [e1]; exact hv))⟩
    | fwd => exact ⟨e2, fun hv => hstep .fwd (by simp) _ (hout (by rw [e2]; exact hv))⟩
    | rev => exact ⟨e3, fun hv => hstep .rev (by simp) _ (hout (by rw [e3]; exact hv))⟩
    | deriv => exact ⟨e4, fun hv => hstep .deriv (by simp) _ (hout (by rw [e4]; exact hv))⟩

end

/-! ## C102 -/

/-- The solvers covered: the Schroedinger solver in the configurations of C29, and the Lindblad solver in those of C99. -/
inductive Covered : SolverSys → Prop where
  | schroedinger {n m : Type} [Fintype n] [DecidableEq n] (cfg : Solver.Cfg n m) (hst : Stable cfg) (τ : List ℝ) :
      Covered (schroedinger cfg τ)
  | lindblad {n : Type} [Fintype n] [DecidableEq n] (c : LCfg n) (hpd : c.diss.Paired) (τ : List ℝ)
      (hc : ∀ y x u, Accepts c τ y x u → ∃ g D, Computable c (c.xTimes τ) u x g D ∧ Stable (c.at g D)) : Covered (lindblad c τ)

theorem Covered.lawful {S : SolverSys} (h : Covered S) : Nonempty (Lawful S) := by
  cases h with
  | schroedinger cfg hst τ => exact ⟨lawfulSchroedinger cfg hst τ⟩
  | lindblad c hpd τ hc => exact ⟨lawfulLindblad c hpd τ hc⟩

/-- **C102** (partial: pulses for which no call has raised) The value which a call of the simulator returns, or the exception it
raises, is that of a simulator with new solvers, after any sequence of evaluations of costs and Jacobians at any pulses, for any
number of solvers and any cost functions.  Missing: a pulse for which a call has raised, see `c102_violated`. -/
theorem c102_history_partial (sim : Simulator) (h : ∀ i, Covered (sim.S i)) (cs : List Call) (c : Call)
    (hc : c.pulse ∉ raised sim cs (start sim)) :
    (call sim c (calls sim cs (start sim))).1 = (call sim c (start sim)).1 :=
  call_history (fun i => (h i).lawful.some) cs c hc

/-- **C102** (consequence): without exceptions the order of two evaluations does not matter. -/
theorem c102_order (sim : Simulator) (h : ∀ i, Covered (sim.S i)) (c c' : Call) (v v' : Out)
    (h1 : (call sim c (start sim)).1 = .ok v) (h2 : (call sim c' (call sim c (start sim)).2).1 = .ok v') :
    (call sim c' (start sim)).1 = .ok v' ∧ (call sim c (call sim c' (start sim)).2).1 = .ok v := by
  have hr : raised sim [c] (start sim) = [] := by simp [raised, h1]
  have a := c102_history_partial sim h [c] c' (by rw [hr]; simp)
  have h3 : (call sim c' (start sim)).1 = .ok v' := a.symm.trans h2
  refine ⟨h3, ?_⟩
  have hr' : raised sim [c'] (start sim) = [] := by simp [raised, h3]
  exact (c102_history_partial sim h [c'] c (by rw [hr']; simp)).trans h1

/-! ## The violation -/

section
variable {n m : Type} [Fintype n] [DecidableEq n]

/-- A simulator with one Schroedinger solver. -/
noncomputable def single (cfg : Solver.Cfg n m) (τ : List ℝ) (Fs : List (CostFn (schroedinger cfg τ))) : Simulator :=
  { N := 1, S := fun _ => schroedinger cfg τ, costFuncs := Fs.map fun F => ⟨0, F⟩ }

instance (cfg : Solver.Cfg n m) (τ : List ℝ) (Fs : List (CostFn (schroedinger cfg τ))) : NeZero (single cfg τ Fs).N :=
  ⟨Nat.one_ne_zero⟩

/-- A rejected pulse is accepted the second time, and the costs of the pulse before are returned for it. -/
theorem single_stale (cfg : Solver.Cfg n m) (hst : Stable cfg) (τ : List ℝ) (Fs : List (CostFn (schroedinger cfg τ)))
    (y₁ y₂ : Solver.Pulse) (v : List ℝ) (h1 : (call (single cfg τ Fs) (.costs y₁) (start _)).1 = .ok (.costs v))
    (h2 : ampsOf cfg τ y₂ = none) :
    (∃ e, (call (single cfg τ Fs) (.costs y₂) (start _)).1 = .error e) ∧
      (call (single cfg τ Fs) (.costs y₂) (calls (single cfg τ Fs) [.costs y₁, .costs y₂] (start _))).1 = .ok (.costs v) := by
  let L : ∀ i, Lawful ((single cfg τ Fs).S i) := fun _ => lawfulSchroedinger cfg hst τ
  obtain ⟨hv, hR⟩ := call_fresh L (.costs y₁) (bad := []) (by simp) _ (known_start L)
  have hR := hR ⟨_, h1⟩
  rw [h1] at hv
  generalize hst1 : (call (single cfg τ Fs) (.costs y₁) (start _)).2 = st at hR
  obtain ⟨⟨t1, t2⟩, p1, u, hu, hI⟩ := hR 0
  replace t1 : (st 0).tau = τ := t1
  replace t2 : (st 0).times = cfg.xTimes τ := t2
  replace p1 : (st 0).optPars = some y₁ := p1
  have hne : (st 0).optPars ≠ some y₂ := by
    rw [p1]
    intro h
    simp only [Option.some.injEq] at h
    replace hu : ampsOf cfg τ y₁ = some u := hu
    rw [h, h2] at hu
    cases hu
  obtain ⟨a, b, c, d, -, f⟩ := setPars_new cfg y₂ (st 0) hne (by rw [t1, t2])
  obtain ⟨f1, f2⟩ := f (by rw [t1]; exact h2)
  have hI2 := f2 u hI.amps
  have herr : ∃ e, (setPars cfg y₂ (st 0)).1 = some e := by
    cases he : (setPars cfg y₂ (st 0)).1 with
    | some e => exact ⟨e, rfl⟩
    | none => obtain ⟨u', hu'⟩ := a.1 he; rw [t1, h2] at hu'; cases hu'
  obtain ⟨e, he⟩ := herr
  have h0 : (construct cfg τ).optPars ≠ some y₂ := by simp [construct_facts]
  have he0 : (setPars cfg y₂ (construct cfg τ)).1 = some e := by
    rw [← he]; exact setPars_fst cfg y₂ _ _ h0 hne t1.symm t2.symm
  have hf : List.finRange (single cfg τ Fs).N = [0] := rfl
  -- one call with the second pulse: the solver rejects it
  have key : ∀ st : States (single cfg τ Fs), (setPars cfg y₂ (st 0)).1 = some e →
      call (single cfg τ Fs) (.costs y₂) st = (.error e, Function.update st 0 (setPars cfg y₂ (st 0)).2) := by
    intro st hs
    have : (single cfg τ Fs).S 0 = schroedinger cfg τ := rfl
    unfold call
    rw [hf]
    simp only [Call.pulse, setAll]
    rw [show ((single cfg τ Fs).S 0).set y₂ (st 0) = (some e, (setPars cfg y₂ (st 0)).2) from Prod.ext hs rfl]
  refine ⟨⟨e, by rw [key _ he0]⟩, ?_⟩
  have hst2 : calls (single cfg τ Fs) [.costs y₁, .costs y₂] (start _) = Function.update st 0 (setPars cfg y₂ (st 0)).2 := by
    simp only [calls, hst1]
    rw [key st he]
  rw [hst2]
  have hs2 : Function.update st 0 (setPars cfg y₂ (st 0)).2 0 = (setPars cfg y₂ (st 0)).2 := Function.update_self ..
  have hsame : setAll (single cfg τ Fs) y₂ [0] (Function.update st 0 (setPars cfg y₂ (st 0)).2) =
      (none, Function.update st 0 (setPars cfg y₂ (st 0)).2) := by
    simp only [setAll]
    rw [show ((single cfg τ Fs).S 0).set y₂ (Function.update st 0 (setPars cfg y₂ (st 0)).2 0) =
      (none, (setPars cfg y₂ (st 0)).2) by rw [hs2]; exact setPars_same cfg y₂ _ d]
    exact congrArg (Prod.mk none) (Function.update_idem ..)
  obtain ⟨l1, -⟩ := loop_good L (fun _ F => F.costs) y₁ (single cfg τ Fs).costFuncs (Function.update st 0 (setPars cfg y₂ (st 0)).2)
    (fun i => by
      have : i = 0 := Fin.fin_one_eq_zero i
      subst this
      rw [hs2]
      exact ⟨⟨b.trans t1, c.trans t2⟩, u, hu, hI2⟩)
  unfold callValue at hv
  unfold call
  rw [hf] at hv ⊢
  simp only [Call.pulse] at hv ⊢
  rw [hsame]
  simp only
  cases hacc : acceptAll L y₁ [0] with
  | some e' => rw [hacc] at hv; cases hv
  | none =>
    rw [hacc] at hv
    simp only at hv
    rw [← l1] at hv
    cases hl : loop (single cfg τ Fs) (fun _ F => F.costs) (single cfg τ Fs).costFuncs
      (Function.update st 0 (setPars cfg y₂ (st 0)).2) with
    | mk r st' =>
      rw [hl] at hv
      cases r with
      | error e' => cases hv
      | ok vs => exact hv.symm

theorem loop_one (sim : Simulator) (i : Fin sim.N) (F : CostFn (sim.S i)) {α : Type}
    (f : ∀ i, CostFn (sim.S i) → Prog (sim.S i) α) (st : States sim) (v : α) (s' : (sim.S i).σ)
    (h : (f i F).run (st i) = (.ok v, s')) : loop sim f [⟨i, F⟩] st = (.ok [v], Function.update st i s') := by
  simp [loop, h]

/-- The cost function which returns the amplitudes. -/
noncomputable def readAmps (cfg : Solver.Cfg n m) (τ : List ℝ) : CostFn (schroedinger cfg τ) where
  costs := .read Query.amps fun a => .done (.ok (Option.getD (α := Solver.Pulse) a []).flatten)
  jac _ := .done (.error .notImplementedError)

/-- **C102** fails for a pulse whose evaluation has raised: a simulator with two time steps evaluates the pulse (1, 2); it raises for
a pulse of one time step, as a new one does; asked again it returns the costs of (1, 2) for it. -/
theorem c102_violated (L : Operator.Lapack n) (H : Matrix n n ℂ) (init : Matrix n m ℂ) :
    let cfg : Solver.Cfg n m := simpleCfg L .frechet true .none init [0, 0] [H]
    let sim := single cfg [1, 1] [readAmps cfg [1, 1]]
    (call sim (.costs [[1], [2]]) (start sim)).1 = .ok (.costs [1, 2]) ∧
    (∃ e, (call sim (.costs [[1]]) (start sim)).1 = .error e) ∧
    (call sim (.costs [[1]]) (calls sim [.costs [[1], [2]], .costs [[1]]] (start sim))).1 = .ok (.costs [1, 2]) := by
  intro cfg sim
  have hu : ampsOf cfg [1, 1] [[1], [2]] = some [[1], [2]] :=
    ampsOf_simple L .frechet true .none init [0, 0] [H] [1, 1] _ (by simp) rfl (by simp)
  have hb : ampsOf cfg [1, 1] [[1]] = none :=
    setPars_simple_bad L .frechet true .none init [0, 0] [H] [1, 1] [[1]] 1 (by simp) (by simp) (by simp)
  have h1 : (call sim (.costs [[1], [2]]) (start sim)).1 = .ok (.costs [1, 2]) := by
    obtain ⟨a, -, -, -, e, -⟩ := setPars_new cfg [[1], [2]] (construct cfg [1, 1]) (by simp [construct_facts]) rfl
    have hn := a.2 ⟨_, hu⟩
    have ham := (e _ hu).amps
    have hs : setPars cfg [[1], [2]] (construct cfg [1, 1]) = (none, (setPars cfg [[1], [2]] (construct cfg [1, 1])).2) := Prod.ext hn rfl
    unfold call
    rw [show List.finRange sim.N = [0] from rfl]
    simp only [Call.pulse, setAll]
    rw [show (sim.S 0).set [[1], [2]] (start sim 0) = (none, (setPars cfg [[1], [2]] (construct cfg [1, 1])).2) from hs]
    simp only
    rw [show sim.costFuncs = [⟨0, readAmps cfg [1, 1]⟩] from rfl]
    have hrun : (readAmps cfg [1, 1]).costs.run (setPars cfg [[1], [2]] (construct cfg [1, 1])).2 =
        (.ok [1, 2], (setPars cfg [[1], [2]] (construct cfg [1, 1])).2) := by
      change (Except.ok (Option.getD (setPars cfg [[1], [2]] (construct cfg [1, 1])).2.amps []).flatten, _) = _
      rw [ham]
      rfl
    have hl := loop_one sim 0 (readAmps cfg [1, 1]) (fun _ F => F.costs)
      (Function.update (start sim) 0 (setPars cfg [[1], [2]] (construct cfg [1, 1])).2) _ _
      (by rw [show Function.update (start sim) 0 (setPars cfg [[1], [2]] (construct cfg [1, 1])).2 0 = _ from
            Function.update_self (β := fun i => (sim.S i).σ) ..]; exact hrun)
    rw [hl]
    rfl
  exact ⟨h1, single_stale cfg (stable_simple ..) [1, 1] _ _ _ _ h1 hb⟩

end

/-! ## Cases -/

/-- A simulator with two solvers and a cost function for each. -/
def two (S₀ S₁ : SolverSys) (F : CostFn S₀) (G : CostFn S₁) : Simulator where
  N := 2
  S i := match i with
    | 0 => S₀
    | 1 => S₁
  costFuncs := [⟨0, F⟩, ⟨1, G⟩]

/-- `c102_history_partial` applies to a qubit simulated with and without decay, with one cost function for each of them, for any
results of LAPACK and any earlier evaluations. -/
example (L : Operator.Lapack (Fin 2)) (L' : Operator.Lapack (Fin 2 × Fin 2)) (H : Matrix (Fin 2) (Fin 2) ℂ)
    (F : CostFn (schroedinger (simpleCfg L .frechet true .none (1 : Matrix (Fin 2) (Fin 2) ℂ) [0, 0, 0] [H, 1]) [1, 2, 3]))
    (G : CostFn (lindblad (decayCfg L' L true (some decayPre) (some decayPre')) [1, 2, 3])) (cs : List Call) (c : Call) :
    let sim := two _ _ F G
    c.pulse ∉ raised sim cs (start sim) → (call sim c (calls sim cs (start sim))).1 = (call sim c (start sim)).1 := by
  intro sim hc
  have h : ∀ i : Fin 2, Covered (sim.S i) := by
    intro i
    match i with
    | 0 => exact .schroedinger _ (stable_simple ..) _
    | 1 =>
      refine .lindblad _ (fun h => by simp [decayCfg, decayPar, Diss.hasFuncs] at h) _ fun y x u _ => ?_
      obtain ⟨g, D, hgD, hne, -⟩ := decay_computable (L := L') (S := L) (cd := true) [1, 2, 3] u x
      exact ⟨g, D, hgD, .inl ⟨rfl, rfl⟩⟩
  exact c102_history_partial sim h cs c hc

end Verif.Sim.History
