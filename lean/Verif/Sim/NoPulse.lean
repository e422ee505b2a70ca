import Verif.Sim.History
import Verif.Solver.Alias

/-!
# C131: calls of the simulator without a pulse (simulator.py:193-197, solver_algorithms.py:358-404, 874-878)

`wrapped_cost_functions()` without an argument uses the attribute `pulse`; where that is `None` as well the solvers get `None`.  The
simulator has one Schroedinger solver with the default transfer and amplitude functions (`IdentityTF`, `IdentityAmpFunc`), which
return `None` for `None`, and any cost functions on it.
-/

namespace Verif.Sim.History
open Verif Verif.Solver

section
variable {n m : Type} [Fintype n] [DecidableEq n]

/-- `set_optimization_parameters(None)`, solver_algorithms.py:874-878 and 358-404, for the identity as transfer and amplitude
function.  `np.array_equal(None, None)` is true, also where the first argument is the array `np.copy(None)`; both are the value `none`
of `optPars` here.  Otherwise the caches are reset, `None` is stored, and `len(u.shape)` raises AttributeError. -/
def setNone (s : Solver.St n m) : Option PyErr × Solver.St n m :=
  match s.optPars with
  | none => (none, s)
  | some _ => (some .attributeError, { Solver.reset s with optPars := none, xPars := none })

variable (cfg : Solver.Cfg n m) (τ : List ℝ) (Fs : List (CostFn (schroedinger cfg τ)))

/-- `wrapped_cost_functions()` on a simulator without a pulse, simulator.py:171-235. -/
noncomputable def costsNone (st : States (single cfg τ Fs)) : Except PyErr Out × States (single cfg τ Fs) :=
  match setNone (n := n) (m := m) (st 0) with
  | (some e, s) => (.error e, Function.update st 0 s)
  | (none, s) => match loop (single cfg τ Fs) (fun _ F => F.costs) (single cfg τ Fs).costFuncs (Function.update st 0 s) with
    | (.error e, st) => (.error e, st)
    | (.ok vs, st) => ((Sim.concatenate0 vs).map Out.costs, st)

/-- A call with a pulse, or the evaluation of the costs without one. -/
noncomputable def callO : Option Call → States (single cfg τ Fs) → Except PyErr Out × States (single cfg τ Fs)
  | some c => call (single cfg τ Fs) c
  | none => costsNone cfg τ Fs

/-- A sequence of calls; the caller catches all exceptions. -/
noncomputable def callsO : List (Option Call) → States (single cfg τ Fs) → States (single cfg τ Fs)
  | [], st => st
  | c :: cs, st => callsO cs (callO cfg τ Fs c st).2

/-- Specification: the pulses of the calls which raised. -/
noncomputable def raisedO : List (Option Call) → States (single cfg τ Fs) → List Solver.Pulse
  | [], _ => []
  | none :: cs, st => raisedO cs (callO cfg τ Fs none st).2
  | some c :: cs, st => match (callO cfg τ Fs (some c) st).1 with
    | .error _ => c.pulse :: raisedO cs (callO cfg τ Fs (some c) st).2
    | .ok _ => raisedO cs (callO cfg τ Fs (some c) st).2

/-! ## Lemmas -/

variable {cfg τ Fs}

theorem callsO_append (cs cs' : List (Option Call)) (st : States (single cfg τ Fs)) :
    callsO cfg τ Fs (cs ++ cs') st = callsO cfg τ Fs cs' (callsO cfg τ Fs cs st) := by
  induction cs generalizing st with
  | nil => rfl
  | cons c cs ih => simp only [List.cons_append, callsO]; exact ih _

theorem upd0 (st : States (single cfg τ Fs)) (s : Solver.St n m) :
    Function.update (β := fun i => ((single cfg τ Fs).S i).σ) st 0 s 0 = s := Function.update_self ..

theorem only0 {P : Fin (single cfg τ Fs).N → Prop} (h : P 0) (i : Fin (single cfg τ Fs).N) : P i := by
  have : i = 0 := Fin.fin_one_eq_zero i
  rw [this]; exact h

/-- The state of the only solver. -/
noncomputable def solver0 (st : States (single cfg τ Fs)) : Solver.St n m := st 0

/-- What a call without a pulse leaves: no pulse. -/
theorem costsNone_state (hst : Stable cfg) (st : States (single cfg τ Fs)) (h : (lawfulSchroedinger cfg hst τ).reach (solver0 st)) :
    (lawfulSchroedinger cfg hst τ).reach (solver0 (costsNone cfg τ Fs st).2) ∧ (solver0 (costsNone cfg τ Fs st).2).optPars = none := by
  let L : ∀ i, Lawful ((single cfg τ Fs).S i) := fun _ => lawfulSchroedinger cfg hst τ
  obtain ⟨t1, t2⟩ := h
  have hset : (lawfulSchroedinger cfg hst τ).reach (setNone (solver0 st)).2 ∧ (setNone (solver0 st)).2.optPars = none := by
    unfold setNone
    cases ho : (solver0 st).optPars with
    | none => exact ⟨⟨t1, t2⟩, ho⟩
    | some y => exact ⟨⟨t1, t2⟩, rfl⟩
  unfold costsNone
  rw [show st 0 = solver0 st from rfl]
  generalize setNone (solver0 st) = r at hset
  obtain ⟨r, s⟩ := r
  cases r with
  | some e =>
    show (lawfulSchroedinger cfg hst τ).reach (Function.update (β := fun i => ((single cfg τ Fs).S i).σ) st 0 s 0) ∧ _
    exact ⟨by rw [upd0]; exact hset.1, by unfold solver0; simp only; rw [upd0]; exact hset.2⟩
  | none =>
    have := loop_any L (fun _ F => F.costs) (single cfg τ Fs).costFuncs (Function.update st 0 s)
      (only0 (by rw [upd0]; exact hset.1)) 0
    rw [upd0] at this
    simp only
    cases hl : loop (single cfg τ Fs) (fun _ F => F.costs) (single cfg τ Fs).costFuncs (Function.update st 0 s) with
    | mk r' st'' =>
      rw [hl] at this
      cases r' <;> exact ⟨this.1, this.2.trans hset.2⟩

theorem known_costsNone (hst : Stable cfg) {bad : List Solver.Pulse} (st : States (single cfg τ Fs))
    (h : Known (sim := single cfg τ Fs) (fun _ => lawfulSchroedinger cfg hst τ) bad st) :
    Known (sim := single cfg τ Fs) (fun _ => lawfulSchroedinger cfg hst τ) bad (costsNone cfg τ Fs st).2 := by
  obtain ⟨a, b⟩ := costsNone_state hst st (h 0).1
  refine only0 ⟨a, fun y hy => ?_⟩
  rw [show (lawfulSchroedinger cfg hst τ).pulse ((costsNone cfg τ Fs st).2 0) = none from b] at hy
  cases hy

theorem known_callsO (hst : Stable cfg) : ∀ (cs : List (Option Call)) (bad : List Solver.Pulse) (st : States (single cfg τ Fs)),
    Known (sim := single cfg τ Fs) (fun _ => lawfulSchroedinger cfg hst τ) bad st →
    Known (sim := single cfg τ Fs) (fun _ => lawfulSchroedinger cfg hst τ) (bad ++ raisedO cfg τ Fs cs st) (callsO cfg τ Fs cs st)
  | [], bad, st, h => by simpa [raisedO, callsO] using h
  | none :: cs, bad, st, h => known_callsO hst cs bad _ (known_costsNone hst st h)
  | some c :: cs, bad, st, h => by
    simp only [raisedO, callsO]
    cases hr : (callO cfg τ Fs (some c) st).1 with
    | error e =>
      have := known_callsO hst cs (bad ++ [c.pulse]) _ (call_any _ c (by simp) st (h.mono _ fun y hy => by simp [hy]))
      simp only [callO]
      simpa using this
    | ok v =>
      simp only
      by_cases hc : c.pulse ∈ bad
      · exact known_callsO hst cs bad _ (call_any _ c hc st h)
      · exact known_callsO hst cs bad _ (((call_fresh _ c hc st h).2 ⟨v, hr⟩).known _ bad)

/-- The solver has seen a pulse since it was constructed or since the last call without one. -/
theorem call_optPars (c : Call) (st : States (single cfg τ Fs)) (hst : Stable cfg) (h : (lawfulSchroedinger cfg hst τ).reach (solver0 st)) :
    (solver0 (call (single cfg τ Fs) c st).2).optPars = some c.pulse := by
  let L : ∀ i, Lawful ((single cfg τ Fs).S i) := fun _ => lawfulSchroedinger cfg hst τ
  have hp := setPars_optPars cfg c.pulse (solver0 st)
  have hr := (lawfulSchroedinger cfg hst τ).set_reach c.pulse (solver0 st) h
  unfold call
  rw [show List.finRange (single cfg τ Fs).N = [0] from rfl]
  simp only [setAll]
  rw [show ((single cfg τ Fs).S 0).set c.pulse (st 0) = setPars cfg c.pulse (solver0 st) from rfl]
  rw [show (schroedinger cfg τ).set c.pulse (solver0 st) = setPars cfg c.pulse (solver0 st) from rfl] at hr
  generalize setPars cfg c.pulse (solver0 st) = r at hp hr
  obtain ⟨r, s⟩ := r
  cases r with
  | some e =>
    show Solver.St.optPars (Function.update (β := fun i => ((single cfg τ Fs).S i).σ) st 0 s 0 : Solver.St n m) = _
    rw [upd0]; exact hp
  | none =>
    have hl := fun {α : Type} (P : (i : Fin (single cfg τ Fs).N) → CostFn ((single cfg τ Fs).S i) → Prog ((single cfg τ Fs).S i) α) =>
      (loop_any L P (single cfg τ Fs).costFuncs (Function.update st 0 s) (only0 (by rw [upd0]; exact hr)) 0).2
    cases c with
    | costs y =>
      have := hl fun _ F => F.costs
      rw [upd0] at this
      simp only
      cases hq : loop (single cfg τ Fs) (fun _ F => F.costs) (single cfg τ Fs).costFuncs (Function.update st 0 s) with
      | mk r' st'' => rw [hq] at this; cases r' <;> exact this.trans hp
    | jac y =>
      have := hl fun _ F => F.jac y
      rw [upd0] at this
      simp only
      cases hq : loop (single cfg τ Fs) (fun _ F => F.jac y) (single cfg τ Fs).costFuncs (Function.update st 0 s) with
      | mk r' st'' => rw [hq] at this; cases r' <;> exact this.trans hp

/-- Reading a solver which never had a pulse changes nothing, and raises for everything but the amplitudes. -/
theorem read_never (q : Query) (s : Solver.St n m) (h : s = construct cfg τ) :
    ((schroedinger cfg τ).read q s).2 = s ∧ (q ≠ .amps → ((schroedinger cfg τ).read q s).1 = .error .valueError) := by
  subst h
  cases q with
  | amps => exact ⟨rfl, fun h => absurd rfl h⟩
  | props => exact ⟨rfl, fun _ => rfl⟩
  | fwd => exact ⟨rfl, fun _ => rfl⟩
  | rev => exact ⟨rfl, fun _ => rfl⟩
  | deriv =>
    show (readDeriv cfg _).2 = _ ∧ (_ → (readDeriv cfg _).1 = _)
    unfold readDeriv computeDeriv
    rw [show (construct cfg τ).deriv = none from rfl]
    simp only
    cases cfg.approx <;> exact ⟨rfl, fun _ => rfl⟩

theorem run_never {S : SolverSys} {s : S.σ} (h : ∀ q, (S.read q s).2 = s) {α : Type} (P : Prog S α) : (P.run s).2 = s := by
  induction P with
  | done r => rfl
  | read q k ih =>
    have hq := h q
    simp only [Prog.run]
    cases hr : S.read q s with
    | mk r s' =>
      rw [hr] at hq
      simp only at hq
      subst hq
      cases r with
      | error e => rfl
      | ok v => exact ih v

/-- A loop raises when one of the programs starts with a result whose computation raises. -/
theorem loop_never {sim : Simulator} (st : States sim) (h : ∀ i q, ((sim.S i).read q (st i)).2 = st i)
    (Gs : List ((i : Fin sim.N) × CostFn (sim.S i))) (i : Fin sim.N) (F : CostFn (sim.S i)) (hF : ⟨i, F⟩ ∈ Gs) (q : (sim.S i).Q)
    (e : PyErr) (he : ((sim.S i).read q (st i)).1 = .error e) (k : _) (hk : F.costs = .read q k) :
    ∃ e, (loop sim (fun _ F => F.costs) Gs st).1 = .error e := by
  induction Gs with
  | nil => cases hF
  | cons G Gs ih =>
    obtain ⟨j, G⟩ := G
    have hrun := run_never (h j) G.costs
    simp only [loop]
    rcases List.mem_cons.1 hF with hF | hF
    · cases hF
      rw [hk]
      simp only [Prog.run]
      cases hv : (sim.S i).read q (st i) with
      | mk r s' =>
        rw [hv] at he
        simp only at he
        subst he
        exact ⟨_, rfl⟩
    · cases hv : Prog.run G.costs (st j) with
      | mk r s' =>
        rw [hv] at hrun
        simp only at hrun
        subst hrun
        cases r with
        | error e => exact ⟨e, rfl⟩
        | ok v =>
          obtain ⟨e, he⟩ := ih hF
          simp only [Function.update_eq_self]
          cases hl : loop sim (fun _ F => F.costs) Gs st with
          | mk r st'' =>
            rw [hl] at he
            simp only at he
            subst he
            exact ⟨e, rfl⟩

theorem loop_still {sim : Simulator} (st : States sim) (h : ∀ i q, ((sim.S i).read q (st i)).2 = st i)
    (Gs : List ((i : Fin sim.N) × CostFn (sim.S i))) : (loop sim (fun _ F => F.costs) Gs st).2 = st := by
  induction Gs with
  | nil => rfl
  | cons G Gs ih =>
    obtain ⟨j, G⟩ := G
    have hrun := run_never (h j) G.costs
    simp only [loop]
    cases hv : Prog.run G.costs (st j) with
    | mk r s' =>
      rw [hv] at hrun
      simp only at hrun
      subst hrun
      cases r with
      | error e => exact Function.update_eq_self ..
      | ok v =>
        simp only [Function.update_eq_self]
        cases hl : loop sim (fun _ F => F.costs) Gs st with
        | mk r st'' => rw [hl] at ih; cases r <;> exact ih

/-! ## C131 -/

variable (cfg τ Fs)

/-- **C131** (partial: a new solver) As long as no pulse has been given at all, every evaluation without a pulse raises, if at
least one of the cost functions starts by reading a result of the propagation.  Missing: later calls, see `c131_violated`. -/
theorem c131_new_partial (F : CostFn (schroedinger cfg τ)) (hF : F ∈ Fs) (q : Query) (hq : q ≠ .amps) (k : _)
    (hk : F.costs = .read q k) (j : Nat) :
    ∃ e, (costsNone cfg τ Fs (callsO cfg τ Fs (List.replicate j none) (start _))).1 = .error e := by
  have hfix : ∀ i q, (((single cfg τ Fs).S i).read q (start (single cfg τ Fs) i)).2 = start (single cfg τ Fs) i :=
    fun i q => (read_never (cfg := cfg) (τ := τ) q _ rfl).1
  have hn : setNone (solver0 (start (single cfg τ Fs))) = (none, construct cfg τ) := rfl
  have hu : Function.update (start (single cfg τ Fs)) 0 (construct cfg τ) = start (single cfg τ Fs) := Function.update_eq_self ..
  have h1 : (costsNone cfg τ Fs (start _)).2 = start _ := by
    unfold costsNone
    rw [show start (single cfg τ Fs) 0 = solver0 (start _) from rfl, hn]
    simp only
    rw [hu]
    have := loop_still (start (single cfg τ Fs)) hfix (single cfg τ Fs).costFuncs
    cases hl : loop (single cfg τ Fs) (fun _ F => F.costs) (single cfg τ Fs).costFuncs (start (single cfg τ Fs)) with
    | mk r st'' => rw [hl] at this; cases r <;> exact this
  have h2 : ∀ j, callsO cfg τ Fs (List.replicate j none) (start _) = start _ := by
    intro j
    induction j with
    | zero => rfl
    | succ j ih => rw [List.replicate_succ]; simp only [callsO, callO]; rw [h1]; exact ih
  rw [h2]
  obtain ⟨e, he⟩ := loop_never (start (single cfg τ Fs)) hfix (single cfg τ Fs).costFuncs 0 F
    (List.mem_map.2 ⟨F, hF, rfl⟩) q .valueError ((read_never (cfg := cfg) (τ := τ) q _ rfl).2 hq) k hk
  unfold costsNone
  rw [show start (single cfg τ Fs) 0 = solver0 (start _) from rfl, hn]
  simp only
  rw [hu]
  cases hl : loop (single cfg τ Fs) (fun _ F => F.costs) (single cfg τ Fs).costFuncs (start (single cfg τ Fs)) with
  | mk r st'' =>
    rw [hl] at he
    simp only at he
    subst he
    exact ⟨e, rfl⟩

/-- **C131** (partial: the first call without a pulse) An evaluation without a pulse after a call with one raises AttributeError,
whatever was called before.  Missing: the second evaluation without a pulse, see `c131_violated`. -/
theorem c131_first_partial (hst : Stable cfg) (cs : List (Option Call)) (c : Call) :
    (costsNone cfg τ Fs (callsO cfg τ Fs (cs ++ [some c]) (start _))).1 = .error .attributeError := by
  have hk := known_callsO (Fs := Fs) hst cs [] (start _) (known_start _)
  have ho := call_optPars c _ hst (hk 0).1
  rw [callsO_append]
  simp only [callsO, callO]
  generalize (call (single cfg τ Fs) c (callsO cfg τ Fs cs (start _))).2 = st at ho
  unfold costsNone
  rw [show st 0 = solver0 st from rfl]
  unfold setNone
  rw [ho]

/-- **C131** (consequence) Evaluations without a pulse do not disturb later calls with one: these return, or raise, what they do for
new solvers, after any sequence of calls with and without a pulse in which no call with this pulse has raised. -/
theorem c131_harmless_partial (hst : Stable cfg) (cs : List (Option Call)) (c : Call)
    (hc : c.pulse ∉ raisedO cfg τ Fs cs (start _)) :
    (call (single cfg τ Fs) c (callsO cfg τ Fs cs (start _))).1 = (call (single cfg τ Fs) c (start _)).1 := by
  let L : ∀ i, Lawful ((single cfg τ Fs).S i) := fun _ => lawfulSchroedinger cfg hst τ
  have h1 := known_callsO (Fs := Fs) hst cs [] (start _) (known_start _)
  rw [(call_fresh L c (by simpa using hc) _ h1).1, (call_fresh L c (bad := []) (by simp) _ (known_start L)).1]

/-- **C131** fails from the second evaluation without a pulse on: it returns the costs of the last pulse, however often it is
repeated. -/
theorem c131_violated_repeat (hst : Stable cfg) (cs : List (Option Call)) (y : Solver.Pulse) (v : List ℝ)
    (hc : y ∉ raisedO cfg τ Fs cs (start _)) (hv : (call (single cfg τ Fs) (.costs y) (start _)).1 = .ok (.costs v)) (j : Nat) :
    (costsNone cfg τ Fs (callsO cfg τ Fs (cs ++ some (.costs y) :: List.replicate (j + 1) none) (start _))).1 = .ok (.costs v) := by
  let L : ∀ i, Lawful ((single cfg τ Fs).S i) := fun _ => lawfulSchroedinger cfg hst τ
  have hk := known_callsO (Fs := Fs) hst cs [] (start _) (known_start _)
  obtain ⟨h1, h2⟩ := call_fresh L (.costs y) (by simpa [Call.pulse] using hc) _ hk
  have hcv : callValue L (.costs y) = .ok (.costs v) := by
    rw [← hv]; exact ((call_fresh L (.costs y) (bad := []) (by simp) _ (known_start L)).1).symm
  have hR := h2 ⟨_, h1.trans hcv⟩
  rw [callsO_append]
  simp only [callsO, List.replicate_succ, callO]
  generalize (call (single cfg τ Fs) (.costs y) (callsO cfg τ Fs cs (start _))).2 = st at hR
  obtain ⟨⟨t1, t2⟩, p1, u, hu, hI⟩ := hR 0
  -- the state after the first evaluation without a pulse
  have good : ∀ st : States (single cfg τ Fs), (lawfulSchroedinger cfg hst τ).reach (solver0 st) → SGood cfg τ y (solver0 st) →
      (solver0 st).optPars = none → (costsNone cfg τ Fs st).1 = .ok (.costs v) ∧
        SGood cfg τ y (solver0 (costsNone cfg τ Fs st).2) := by
    intro st hr hg ho
    obtain ⟨l1, l2⟩ := loop_good L (fun _ F => F.costs) y (single cfg τ Fs).costFuncs st (only0 ⟨hr, hg⟩)
    unfold callValue at hcv
    simp only [Call.pulse] at hcv
    unfold costsNone
    rw [show st 0 = solver0 st from rfl]
    unfold setNone
    rw [ho]
    simp only
    rw [show Function.update st 0 (solver0 st) = st from Function.update_eq_self ..]
    cases hacc : acceptAll L y (List.finRange (single cfg τ Fs).N) with
    | some e' => rw [hacc] at hcv; cases hcv
    | none =>
      rw [hacc] at hcv
      simp only at hcv
      rw [← l1] at hcv
      cases hl : loop (single cfg τ Fs) (fun _ F => F.costs) (single cfg τ Fs).costFuncs st with
      | mk r st' =>
        rw [hl] at hcv l2
        cases r with
        | error e' => cases hcv
        | ok vs => exact ⟨hcv, l2 ⟨vs, rfl⟩ 0⟩
  have hs1 : SGood cfg τ y (solver0 (costsNone cfg τ Fs st).2) := by
    unfold costsNone
    rw [show st 0 = solver0 st from rfl]
    unfold setNone
    rw [show (solver0 st).optPars = some y from p1]
    simp only
    unfold solver0
    rw [upd0]
    exact ⟨u, hu, (Inv.reset (cfg := cfg) hI.amps).congr hI.amps rfl rfl rfl rfl rfl rfl⟩
  obtain ⟨r1, o1⟩ := costsNone_state hst st ⟨t1, t2⟩
  generalize (costsNone cfg τ Fs st).2 = st at hs1 r1 o1
  induction j generalizing st with
  | zero => exact (good st r1 hs1 o1).1
  | succ j ih =>
    rw [List.replicate_succ]
    simp only [callsO, callO]
    obtain ⟨a, b⟩ := costsNone_state hst st r1
    exact ih _ (good st r1 hs1 o1).2 a b

/-- **C131** is violated: a simulator with two time steps evaluates the pulse (1, 2) and is then asked for its costs without a pulse.
The first time it raises AttributeError, the second time it returns the costs of (1, 2); a new simulator never returns those. -/
theorem c131_violated (L : Operator.Lapack n) (H : Matrix n n ℂ) (init : Matrix n m ℂ) :
    let cfg : Solver.Cfg n m := simpleCfg L .frechet true .none init [0, 0] [H]
    let Fs := [readAmps cfg [1, 1]]
    (costsNone cfg [1, 1] Fs (callsO cfg [1, 1] Fs [some (.costs [[1], [2]])] (start _))).1 = .error .attributeError ∧
    (costsNone cfg [1, 1] Fs (callsO cfg [1, 1] Fs [some (.costs [[1], [2]]), none] (start _))).1 = .ok (.costs [1, 2]) :=
  ⟨c131_first_partial _ _ _ (stable_simple ..) [] _,
    c131_violated_repeat _ _ _ (stable_simple ..) [] _ _ (by simp [raisedO]) (c102_violated L H init).1 0⟩

end

/-! ## Cases -/

/-- `c131_new_partial` for a qubit and the cost function which returns the real part of an entry of the final propagator. -/
example (L : Operator.Lapack (Fin 2)) (H : Matrix (Fin 2) (Fin 2) ℂ) (j : Nat) :
    let cfg : Solver.Cfg (Fin 2) (Fin 2) := simpleCfg L .frechet true .none 1 [0, 0] [H]
    let F : CostFn (schroedinger cfg [1, 1]) :=
      { costs := .read Query.fwd fun (f : List (Matrix (Fin 2) (Fin 2) ℂ)) => .done (.ok [((f.getLastD 0) 0 0).re])
        jac := fun _ => .done (.error .notImplementedError) }
    ∃ e, (costsNone cfg [1, 1] [readAmps cfg [1, 1], F] (callsO cfg [1, 1] _ (List.replicate j none) (start _))).1 = .error e := by
  intro cfg F
  exact c131_new_partial cfg [1, 1] _ F (by simp) .fwd (by simp) _ rfl j

/-- `c131_harmless_partial` for a qubit: the pulse (1, 2) is evaluated, two evaluations without a pulse follow, then another pulse. -/
example (L : Operator.Lapack (Fin 2)) (H : Matrix (Fin 2) (Fin 2) ℂ) :
    let cfg : Solver.Cfg (Fin 2) (Fin 2) := simpleCfg L .frechet true .none 1 [0, 0] [H]
    let Fs := [readAmps cfg [1, 1]]
    (call (single cfg [1, 1] Fs) (.costs [[3], [4]]) (callsO cfg [1, 1] Fs [some (.costs [[1], [2]]), none, none] (start _))).1 =
      (call (single cfg [1, 1] Fs) (.costs [[3], [4]]) (start _)).1 := by
  intro cfg Fs
  refine c131_harmless_partial cfg [1, 1] Fs (stable_simple ..) _ _ ?_
  have h := (c102_violated L H (1 : Matrix (Fin 2) (Fin 2) ℂ)).1
  simp only [raisedO, callO]
  rw [show (call (single cfg [1, 1] Fs) (.costs [[1], [2]]) (start _)).1 = .ok (.costs [1, 2]) from h]
  simp

end Verif.Sim.History
