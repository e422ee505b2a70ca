import Verif.Optim.Scalar
import Verif.Optim.Violations
import Mathlib.Data.EReal.Basic

/-!
# C133, C134: a run of an optimizer (optimize.py:408-460, 527-633)

`scipy.optimize.least_squares` and `scipy.optimize.minimize` are third-party functions.  Their algorithms are arbitrary programs which
ask for costs and Jacobians, and return or raise; they do not write into arrays they share with the optimizer (C60 treats callers which
do).  The checks of the arguments of `least_squares` that concern the method, the bounds and the number of evaluations are modelled from
its published source and are part of the trusted base.  Performance statistics, `verbose` and the Jacobian which scipy computes from
finite differences (it only asks for costs) have no part in the model.
-/

namespace Verif.Optim.Run
open Verif Verif.Transfer Verif.Optim

/-! ## Model -/

/-- An algorithm which asks for costs of type `V` and Jacobians of type `G`. -/
inductive Alg (V G α : Type) where
  | ret (a : α)
  | fail (e : PyErr)
  | cost (v : List ℝ) (k : V → Alg V G α)
  | jac (v : List ℝ) (k : G → Alg V G α)

/-- The attribute `termination_conditions`, optimize.py:92-99 and 167-169.  Simplified: a record of its six entries, as values of one
optimizer (C62 treats the sharing of the dictionary between optimizers). -/
structure Conditions where
  minGradientNorm : ℝ
  minCostGain : ℝ
  maxWallTime : ℝ
  maxCostFuncCalls : ℝ
  maxIterations : ℝ
  minAmplitudeChange : ℝ

/-- The attributes of an optimizer, optimize.py:157-191, 393-408, 480-500. -/
structure Opt (C : Nat) where
  F : Nat
  conditions : Conditions
  weights : Option (List ℝ)
  save : Bool
  useJac : Bool
  store : Bool
  method : String
  /-- `bounds`: arrays with the lower and the upper bounds for `least_squares`, one array with a pair for each entry for `minimize` -/
  bounds : Option (List (List EReal))
  /-- `system_simulator.cost_indices` -/
  indices : List String
  sim : Nat → Pulse ℝ C → Except PyErr (List ℝ)
  jac : Nat → Pulse ℝ C → Except PyErr (Grads ℝ F C)

/-- The optimizer after `prepare_optimization` with a pulse of `T` time steps, optimize.py:305. -/
abbrev Opt.cfg {C : Nat} (o : Opt C) (scalar : Bool) (T : Nat) : Cfg :=
  { T := T, C := C, F := o.F, weights := o.weights, save := o.save, useJac := o.useJac, scalar := scalar,
    maxWall := o.conditions.maxWallTime, sim := o.sim, jac := o.jac }

/-- The functions an algorithm is given: the wrapper of the costs, and that of the Jacobian or `None`. -/
structure Wrappers (cfg : Cfg) (V G : Type) where
  cost : St cfg.F cfg.C → Nat → ℝ → Except Stop V × St cfg.F cfg.C
  jac : Option (St cfg.F cfg.C → List ℝ → Except PyErr G × St cfg.F cfg.C)

/-- A run of the algorithm, up to the first exception.  `clock n` is the time since the start after `n` calls of the simulator.  `None`
cannot be called (TypeError). -/
noncomputable def exec {cfg : Cfg} {V G α : Type} (W : Wrappers cfg V G) (clock : Nat → ℝ) :
    Alg V G α → St cfg.F cfg.C → Except Stop α × St cfg.F cfg.C
  | .ret a, st => (.ok a, st)
  | .fail e, st => (.error (.py e), st)
  | .cost v k, st =>
    match W.cost { st with heap := st.heap ++ [v] } st.heap.length (clock st.calls) with
    | (.error e, st) => (.error e, st)
    | (.ok x, st) => exec W clock (k x) st
  | .jac v k, st =>
    match W.jac with
    | none => (.error (.py .typeError), st)
    | some J => match J st v with
      | (.error e, st) => (.error (.py e), st)
      | (.ok x, st) => exec W clock (k x) st

/-- `fun=super().cost_func_wrapper` and `jac`, optimize.py:414-425. -/
noncomputable def arrayWrappers (cfg : Cfg) (useJac : Bool) : Wrappers cfg (List ℝ) (List (List ℝ)) where
  cost st a t := match costWrapper cfg st a t with
    | (.error e, st) => (.error e, st)
    | (.ok a, st) => (.ok (deref st.heap a), st)
  jac := if useJac then some (jacWrapper cfg) else none

/-- `fun=self.cost_func_wrapper` and `jac`, optimize.py:532-541, 576, 606. -/
noncomputable def scalarWrappers (cfg : Cfg) (useJac : Bool) : Wrappers cfg ℝ (List ℝ) where
  cost := scalarCost cfg
  jac := if useJac then some (scalarJac cfg) else none

/-- The value `final_cost` of a result: an array, a number, or `np.inf`. -/
inductive Final where
  | array (v : List ℝ)
  | number (s : ℝ)
  | infinite

/-- `OptimizationResult`, optimization_data.py:108-135; `optimizer` tells whether the optimizer is stored in it. -/
structure Report (C : Nat) where
  finalCost : Option Final := none
  indices : Option (List String) := none
  finalParameters : Option (Pulse ℝ C) := none
  finalGradNorm : Option ℝ := none
  initParameters : Option (Pulse ℝ C) := none
  numIter : Option Nat := none
  terminationReason : String := "not started yet"
  status : Option ℤ := none
  optimizer : Bool := false

/-- `write_state_to_result`, optimize.py:322-360. -/
noncomputable def timeout {C : Nat} (o : Opt C) (scalar : Bool) (T : Nat) (st : St o.F C) : Except Stop (Report C) × St o.F C :=
  match writeState (o.cfg scalar T) st with
  | (.error e, st) => (.error (.py e), st)
  | (.ok r, st) => (.ok
      { finalCost := some (match r.finalCost with | some v => .array v | none => .infinite)
        indices := some o.indices
        finalParameters := r.finalParameters
        finalGradNorm := some r.finalGradNorm
        numIter := some r.numIter
        terminationReason := "Maximum Wall Time Exceeded"
        status := some r.status
        optimizer := o.store }, st)

/-! ### Least squares -/

/-- The arguments of `least_squares` after its checks; `jac` tells whether a function was given. -/
structure LsqArgs where
  x0 : List ℝ
  jac : Bool
  lower : List EReal
  upper : List EReal
  method : String
  ftol : ℝ
  xtol : ℝ
  gtol : ℝ
  maxNfev : ℝ

/-- The fields of its result which are used. -/
structure LsqResult where
  x : List ℝ
  cost : List ℝ
  grad : List ℝ
  nfev : Nat
  message : String
  status : ℤ

open Classical in
/-- `scipy.optimize.least_squares`: the checks of its arguments (published source, version 1.x), then the algorithm.  Scalar bounds are
not modelled. -/
noncomputable def leastSquares (alg : LsqArgs → Alg (List ℝ) (List (List ℝ)) LsqResult) (x0 : List ℝ) (jac : Bool)
    (bounds : Option (List (List EReal))) (method : String) (ftol xtol gtol maxNfev : ℝ) : Alg (List ℝ) (List (List ℝ)) LsqResult :=
  if method ≠ "trf" ∧ method ≠ "dogbox" ∧ method ≠ "lm" then .fail .valueError
  else match bounds with
    | none => .fail .typeError
    | some [lb, ub] =>
      if maxNfev ≤ 0 then .fail .valueError
      else if method = "lm" ∧ ¬ ((∀ b ∈ lb, b = ⊥) ∧ ∀ b ∈ ub, b = ⊤) then .fail .valueError
      else if lb.length ≠ x0.length ∨ ub.length ≠ x0.length then .fail .valueError
      else if ∃ i, i < x0.length ∧ ub.getD i ⊤ ≤ lb.getD i ⊥ then .fail .valueError
      else if ∃ i, i < x0.length ∧ ¬ (lb.getD i ⊥ ≤ ((x0.getD i 0 : ℝ) : EReal) ∧ ((x0.getD i 0 : ℝ) : EReal) ≤ ub.getD i ⊤) then
        .fail .valueError
      else alg ⟨x0, jac, lb, ub, method, ftol, xtol, gtol, maxNfev⟩
    | some _ => .fail .valueError

/-- The call of `least_squares`, optimize.py:422-433. -/
noncomputable def lsqCall {C : Nat} (alg : LsqArgs → Alg (List ℝ) (List (List ℝ)) LsqResult) (o : Opt C) (y : Pulse ℝ C) :
    Alg (List ℝ) (List (List ℝ)) LsqResult :=
  leastSquares alg (flattenT y) o.useJac o.bounds o.method o.conditions.minCostGain o.conditions.minAmplitudeChange
    o.conditions.minGradientNorm o.conditions.maxIterations

/-- `LeastSquaresOptimizer.run_optimization`, optimize.py:408-460. -/
noncomputable def runLsq {C : Nat} (alg : LsqArgs → Alg (List ℝ) (List (List ℝ)) LsqResult) (o : Opt C) (clock : Nat → ℝ)
    (y : Pulse ℝ C) : Except Stop (Report C) × St o.F C :=
  let cfg := o.cfg false y.length
  match exec (arrayWrappers cfg o.useJac) clock (lsqCall alg o y) (prepared o.F C) with
  | (.error .wallTime, st) => timeout o false y.length st
  | (.error (.py e), st) => (.error (.py e), st)
  | (.ok r, st) => match unflatten y.length C r.x with
    | .error e => (.error (.py e), st)
    | .ok x => (.ok
        { finalCost := some (.array r.cost), indices := some o.indices, finalParameters := some x, finalGradNorm := some (norm r.grad),
          numIter := some r.nfev, terminationReason := r.message, status := some r.status, optimizer := o.store }, st)

/-! ### Scalar minimisation -/

/-- The arguments of `minimize`; options which are not given are `none`. -/
structure MinArgs where
  x0 : List ℝ
  jac : Bool
  bounds : Option (List (List EReal))
  method : String
  ftol : Option ℝ := none
  gtol : Option ℝ := none
  maxiter : Option ℝ := none

/-- The fields of its result which are used; not all methods report a gradient. -/
structure MinResult where
  x : List ℝ
  cost : ℝ
  jac : Option (List ℝ)
  nfev : Nat
  message : String
  status : ℤ

/-- The arguments of the three calls of `minimize`, optimize.py:537-550, 575-583, 605-610. -/
def minArgs {C : Nat} (o : Opt C) (y : Pulse ℝ C) : MinArgs :=
  if o.method = "L-BFGS-B" then
    { x0 := flattenT y, jac := o.useJac, bounds := o.bounds, method := o.method, ftol := some o.conditions.minCostGain,
      gtol := some o.conditions.minGradientNorm, maxiter := some o.conditions.maxIterations }
  else if o.method = "Nelder-Mead" then
    { x0 := flattenT y, jac := false, bounds := o.bounds, method := o.method, maxiter := some o.conditions.maxIterations }
  else { x0 := flattenT y, jac := false, bounds := o.bounds, method := o.method }

/-- The three results built from that of `minimize`, optimize.py:552-570, 585-601, 612-625. -/
noncomputable def minReport {C : Nat} (o : Opt C) (T : Nat) (r : MinResult) : Except PyErr (Report C) := do
  let x ← unflatten T C r.x
  let base : Report C :=
    { finalCost := some (.number r.cost), indices := some o.indices, finalParameters := some x, numIter := some r.nfev,
      terminationReason := r.message, status := some r.status }
  if o.method = "L-BFGS-B" then
    match r.jac with
    | none => .error .attributeError
    | some g => .ok { base with finalGradNorm := some (norm g), optimizer := o.store }
  else if o.method = "Nelder-Mead" then .ok { base with optimizer := o.store }
  else .ok { base with optimizer := true }

/-- `ScalarMinimizingOptimizer.run_optimization`, optimize.py:527-633. -/
noncomputable def runScalar {C : Nat} (alg : MinArgs → Alg ℝ (List ℝ) MinResult) (o : Opt C) (clock : Nat → ℝ) (y : Pulse ℝ C) :
    Except Stop (Report C) × St o.F C :=
  let cfg := o.cfg true y.length
  match exec (scalarWrappers cfg (minArgs o y).jac) clock (alg (minArgs o y)) (prepared o.F C) with
  | (.error .wallTime, st) => timeout o true y.length st
  | (.error (.py e), st) => (.error (.py e), st)
  | (.ok r, st) => match minReport o y.length r with
    | .error e => (.error (.py e), st)
    | .ok r => (.ok r, st)

/-! ## Specification -/

/-- What an algorithm returns when its questions are answered by two functions, and the points at which it asked for the costs. -/
def Alg.answer {V G α : Type} (f : List ℝ → Except PyErr V) (g : List ℝ → Except PyErr G) : Alg V G α → Except PyErr (α × List (List ℝ))
  | .ret a => .ok (a, [])
  | .fail e => .error e
  | .cost v k => match f v with
    | .error e => .error e
    | .ok x => match (k x).answer f g with
      | .error e => .error e
      | .ok (a, l) => .ok (a, v :: l)
  | .jac v k => match g v with
    | .error e => .error e
    | .ok x => (k x).answer f g

/-- The algorithm asks at most `n` times for the costs, whatever the answers. -/
def Alg.Within {V G α : Type} : Alg V G α → ℝ → Prop
  | .ret _, _ => True
  | .fail _, _ => True
  | .cost _ k, n => 1 ≤ n ∧ ∀ x, (k x).Within (n - 1)
  | .jac _ k, n => ∀ x, (k x).Within n

/-- The algorithm does not return before it was given `n` Jacobians. -/
def Alg.Asks {V G α : Type} : Alg V G α → Nat → Prop
  | .ret _, n => n = 0
  | .fail _, _ => True
  | .cost _ k, n => ∀ x, (k x).Asks n
  | .jac _ k, n => ∀ x, (k x).Asks (n - 1)

/-- The algorithm asks only at points with this property. -/
def Alg.Stays {V G α : Type} (P : List ℝ → Prop) : Alg V G α → Prop
  | .ret _ => True
  | .fail _ => True
  | .cost v k => P v ∧ ∀ x, (k x).Stays P
  | .jac v k => P v ∧ ∀ x, (k x).Stays P

/-- The cost values times their weights. -/
def weighted (w : Option (List ℝ)) (c : List ℝ) : List ℝ := (List.range c.length).map fun i => weightAt w i * c.getD i 0

/-- The sum of the squares. -/
def squares (l : List ℝ) : ℝ := (l.map fun x => x ^ 2).sum

/-! ## Lemmas -/

section
variable {cfg : Cfg} {V G α : Type}

/-- Wrappers which pass on what the wrappers of the base class return, as these functions of it. -/
structure PassOn (W : Wrappers cfg V G) (φ : List ℝ → V) (ψ : List (List ℝ) → G) : Prop where
  cost : ∀ st a t, W.cost st a t = match costWrapper cfg st a t with
    | (.error e, st) => (.error e, st)
    | (.ok b, st) => (.ok (φ (deref st.heap b)), st)
  jac : ∀ J, W.jac = some J → ∀ st v, J st v = match jacWrapper cfg st v with
    | (.error e, st) => (.error e, st)
    | (.ok j, st) => (.ok (ψ j), st)

theorem passOn_array (useJac : Bool) : PassOn (arrayWrappers cfg useJac) id id := by
  refine ⟨fun st a t => rfl, fun J hJ st v => ?_⟩
  cases useJac
  · simp [arrayWrappers] at hJ
  · simp only [arrayWrappers, if_true, Option.some.injEq] at hJ
    subst hJ
    rcases jacWrapper cfg st v with ⟨_ | _, _⟩ <;> rfl

theorem passOn_scalar (useJac : Bool) : PassOn (scalarWrappers cfg useJac) List.sum (sumRows (cfg.C * cfg.T)) := by
  refine ⟨fun st a t => rfl, fun J hJ st v => ?_⟩
  cases useJac
  · simp [scalarWrappers] at hJ
  · simp only [scalarWrappers, if_true, Option.some.injEq] at hJ
    subst hJ
    rfl

/-- The history of a run. -/
noncomputable def events (W : Wrappers cfg V G) (clock : Nat → ℝ) : Alg V G α → St cfg.F cfg.C → List Event
  | .ret _, _ => []
  | .fail _, _ => []
  | .cost v k, st => .cost v (clock st.calls) ::
    match W.cost { st with heap := st.heap ++ [v] } st.heap.length (clock st.calls) with
    | (.error _, _) => []
    | (.ok x, st) => events W clock (k x) st
  | .jac v k, st => match W.jac with
    | none => []
    | some J => .jac v :: match J st v with
      | (.error _, _) => []
      | (.ok x, st) => events W clock (k x) st

theorem events_noWrite (W : Wrappers cfg V G) (clock : Nat → ℝ) : ∀ (A : Alg V G α) (st : St cfg.F cfg.C),
    ∀ e ∈ events W clock A st, e.isWrite = false
  | .ret _, _ => by simp [events]
  | .fail _, _ => by simp [events]
  | .cost v k, st => by
    intro e he
    simp only [events, List.mem_cons] at he
    rcases he with rfl | he
    · rfl
    · split at he
      · simp at he
      · exact events_noWrite W clock _ _ e he
  | .jac v k, st => by
    intro e he
    simp only [events] at he
    split at he
    · simp at he
    · simp only [List.mem_cons] at he
      rcases he with rfl | he
      · rfl
      · split at he
        · simp at he
        · exact events_noWrite W clock _ _ e he

/-- A run is one of the histories of C60, C61, C63 and C120. -/
theorem exec_run {W : Wrappers cfg V G} {φ : List ℝ → V} {ψ : List (List ℝ) → G} (hW : PassOn W φ ψ) (clock : Nat → ℝ) :
    ∀ (A : Alg V G α) (st : St cfg.F cfg.C), (exec W clock A st).2 = (run cfg st (events W clock A st)).2 ∧
      (∀ a, (exec W clock A st).1 = .ok a → (run cfg st (events W clock A st)).1 = none) ∧
      ((exec W clock A st).1 = .error .wallTime → (run cfg st (events W clock A st)).1 = some .wallTime)
  | .ret _, _ => by simp [exec, events, run]
  | .fail _, _ => by simp [exec, events, run]
  | .cost v k, st => by
    simp only [exec, events, run, step]
    rw [hW.cost]
    rcases costWrapper cfg { st with heap := st.heap ++ [v] } st.heap.length (clock st.calls) with ⟨e | b, st1⟩
    · simp
    · exact exec_run hW clock (k _) st1
  | .jac v k, st => by
    simp only [exec, events]
    cases hJ : W.jac with
    | none => simp [run]
    | some J =>
      simp only [run, step]
      rw [hW.jac J hJ]
      rcases jacWrapper cfg st v with ⟨e | b, st1⟩
      · simp
      · exact exec_run hW clock (k _) st1

/-- The objective of the algorithm, for a simulator without memory. -/
noncomputable def objective (cfg : Cfg) (S : Pulse ℝ cfg.C → Except PyErr (List ℝ)) (φ : List ℝ → V) (v : List ℝ) : Except PyErr V :=
  match unflatten cfg.T cfg.C v with
  | .error e => .error e
  | .ok y => match S y with
    | .error e => .error e
    | .ok c => (weigh cfg.weights c).map φ

/-- Its derivative. -/
noncomputable def slope (cfg : Cfg) (J : Pulse ℝ cfg.C → Except PyErr (Grads ℝ cfg.F cfg.C)) (ψ : List (List ℝ) → G) (v : List ℝ) :
    Except PyErr G :=
  match unflatten cfg.T cfg.C v with
  | .error e => .error e
  | .ok y => match J y with
    | .error e => .error e
    | .ok j => (weighJac cfg.weights (flattenJac j)).map ψ

theorem exec_answer {W : Wrappers cfg V G} {φ : List ℝ → V} {ψ : List (List ℝ) → G} (hW : PassOn W φ ψ) (clock : Nat → ℝ)
    {S : Pulse ℝ cfg.C → Except PyErr (List ℝ)} {J : Pulse ℝ cfg.C → Except PyErr (Grads ℝ cfg.F cfg.C)}
    (hS : ∀ n y, cfg.sim n y = S y) (hJ : ∀ n y, cfg.jac n y = J y) :
    ∀ (A : Alg V G α) (st : St cfg.F cfg.C) (a : α), (exec W clock A st).1 = .ok a →
      ∃ pts, A.answer (objective cfg S φ) (slope cfg J ψ) = .ok (a, pts) ∧
        pts.map (unflatten cfg.T cfg.C) = (evaluations cfg st.calls (events W clock A st)).map fun e => .ok e.1
  | .ret _, _, a, h => by
    simp only [exec, Except.ok.injEq] at h
    subst h
    exact ⟨[], by simp [Alg.answer, events, evaluations]⟩
  | .fail _, _, a, h => by simp [exec] at h
  | .cost v k, st, a, h => by
    simp only [exec] at h
    simp only [events]
    rw [hW.cost] at h ⊢
    by_cases ht : cfg.maxWall < clock st.calls
    · simp [costWrapper, ht] at h
    have hd : deref (st.heap ++ [v]) st.heap.length = v := by simp [deref]
    cases hy : unflatten cfg.T cfg.C v with
    | error e => simp [costWrapper, ht, hd, hy] at h
    | ok y =>
      cases hv : cfg.sim st.calls y with
      | error e => simp [costWrapper, ht, hd, hy, hv] at h
      | ok c =>
        obtain ⟨st', hr, h1, h2⟩ := costWrapper_ok cfg st v (clock st.calls) y c ht hy hv
        cases hg : weigh cfg.weights c with
        | error e => rw [(h2 e hg).2] at h; simp at h
        | ok c' =>
          rw [(h1 c' hg).2] at h ⊢
          simp only at h ⊢
          have hc : deref st'.heap (st.heap.length + 1) = c' := by rw [hr.1]; simp [deref, stored, hg]
          rw [hc] at h ⊢
          obtain ⟨pts, p1, p2⟩ := exec_answer hW clock hS hJ (k (φ c')) st' a h
          rw [hS] at hv
          refine ⟨v :: pts, ?_, ?_⟩
          · simp [Alg.answer, objective, hy, hv, hg, Except.map, p1]
          · simp only [evaluations, ht, if_false, hy, hS, hv, hg, List.map_cons, p2, hr.2.1]
  | .jac v k, st, a, h => by
    simp only [exec] at h
    simp only [events]
    cases hj : W.jac with
    | none => rw [hj] at h; simp at h
    | some J' =>
      rw [hj] at h
      simp only at h ⊢
      rw [hW.jac J' hj] at h ⊢
      unfold jacWrapper at h ⊢
      cases hy : unflatten cfg.T cfg.C v with
      | error e => simp [hy] at h
      | ok y =>
        simp only [hy] at h ⊢
        cases hv : cfg.jac st.calls y with
        | error e => simp [hv] at h
        | ok j =>
          simp only [hv] at h ⊢
          cases hg : weighJac cfg.weights (flattenJac j) with
          | error e => simp [hg] at h
          | ok j' =>
            simp only [hg] at h ⊢
            obtain ⟨pts, p1, p2⟩ := exec_answer hW clock hS hJ (k (ψ j')) _ a h
            refine ⟨pts, ?_, ?_⟩
            · rw [hJ] at hv
              simp [Alg.answer, slope, hy, hv, hg, Except.map, p1]
            · rw [p2]
              simp only [evaluations, hy, hv, hg]
              cases cfg.save <;> rfl

end

theorem weigh_eq {w : Option (List ℝ)} {c c' : List ℝ} (h : weigh w c = .ok c') : c' = weighted w c := by
  unfold weigh at h
  split at h
  · cases h
    refine List.ext_getElem (by simp [weighted]) fun i h1 h2 => ?_
    simp [weighted, weightAt, h1]
  · cases h
    refine List.ext_getElem (by simp [weighted]) fun i h1 h2 => ?_
    have : i < c.length := by simpa using h1
    simp [weighted, weightAt, this, mul_comm]
  · next l hl =>
    split at h
    · next hlen =>
      cases h
      refine List.ext_getElem (by simp [weighted, hlen]) fun i h1 h2 => ?_
      have h3 : i < c.length := by simpa [weighted] using h2
      have h4 : i < l.length := by omega
      have hw : weightAt (some l) i = l[i] := by
        match l, hl with
        | [], _ => simp at h4
        | [a], h => exact absurd rfl (h a)
        | a :: b :: l, _ => simp [weightAt, List.getElem?_eq_getElem h4]
      simp [weighted, hw, h3, mul_comm]
    · cases h

theorem weigh_fits {w : Option (List ℝ)} {c : List ℝ} (h : FitsWeights w c.length) : weigh w c = .ok (weighted w c) := by
  cases hw : weigh w c with
  | ok c' => rw [weigh_eq hw]
  | error e =>
    unfold weigh at hw
    split at hw
    · cases hw
    · cases hw
    · next l hl =>
      rw [if_pos] at hw
      · cases hw
      · rcases h l rfl with h | h
        · obtain ⟨x, rfl⟩ := List.length_eq_one_iff.1 h
          exact absurd rfl (hl x)
        · exact h

/-! ## C133 -/

/-- Contract of `minimize`: it returns one of the points it asked for, with the value it got there. -/
def MinHonest (alg : MinArgs → Alg ℝ (List ℝ) MinResult) : Prop :=
  ∀ args f g r pts, (alg args).answer f g = .ok (r, pts) → r.x ∈ pts ∧ f r.x = .ok r.cost

/-- Contract of `minimize`: the result is not worse than the initial point. -/
def MinDescends (alg : MinArgs → Alg ℝ (List ℝ) MinResult) : Prop :=
  ∀ args f g r pts v, (alg args).answer f g = .ok (r, pts) → f args.x0 = .ok v → r.cost ≤ v

/-- Contract of `least_squares`: it returns one of the points it asked for, with the values it got there. -/
def LsqHonest (alg : LsqArgs → Alg (List ℝ) (List (List ℝ)) LsqResult) : Prop :=
  ∀ args f g r pts, (alg args).answer f g = .ok (r, pts) → r.x ∈ pts ∧ f r.x = .ok r.cost

/-- Contract of `least_squares`: the sum of the squares is not larger than that at the initial point. -/
def LsqDescends (alg : LsqArgs → Alg (List ℝ) (List (List ℝ)) LsqResult) : Prop :=
  ∀ args f g r pts v, (alg args).answer f g = .ok (r, pts) → f args.x0 = .ok v → squares r.cost ≤ squares v

theorem objective_ok {V : Type} {cfg : Cfg} {S : Pulse ℝ cfg.C → Except PyErr (List ℝ)} {φ : List ℝ → V} {v : List ℝ} {x : V}
    (h : objective cfg S φ v = .ok x) :
    ∃ y c, unflatten cfg.T cfg.C v = .ok y ∧ S y = .ok c ∧ x = φ (weighted cfg.weights c) := by
  unfold objective at h
  split at h
  · cases h
  · next y hy =>
    split at h
    · cases h
    · next c hc =>
      cases hg : weigh cfg.weights c with
      | error e => rw [hg] at h; cases h
      | ok c' =>
        rw [hg, weigh_eq hg] at h
        cases h
        exact ⟨y, c, hy, hc, rfl⟩

theorem objective_initial {V : Type} {cfg : Cfg} {S : Pulse ℝ cfg.C → Except PyErr (List ℝ)} {φ : List ℝ → V} {y : Pulse ℝ cfg.C}
    {c : List ℝ} (hT : cfg.T = y.length) (hc : S y = .ok c) (hw : FitsWeights cfg.weights c.length) :
    objective cfg S φ (flattenT y) = .ok (φ (weighted cfg.weights c)) := by
  unfold objective
  rw [hT, c59_unflatten_flatten]
  simp [hc, weigh_fits hw, Except.map]

theorem minArgs_x0 {C : Nat} (o : Opt C) (y : Pulse ℝ C) : (minArgs o y).x0 = flattenT y := by
  unfold minArgs
  split
  · rfl
  · split <;> rfl

theorem minReport_fields {C : Nat} {o : Opt C} {T : Nat} {r : MinResult} {R : Report C} (h : minReport o T r = .ok R) :
    ∃ x, unflatten T C r.x = .ok x ∧ R.finalCost = some (.number r.cost) ∧ R.indices = some o.indices ∧ R.finalParameters = some x ∧
      R.numIter = some r.nfev ∧ R.terminationReason = r.message ∧ R.status = some r.status ∧ R.initParameters = none := by
  unfold minReport at h
  cases hx : unflatten T C r.x with
  | error e => rw [hx] at h; cases h
  | ok x =>
    rw [hx] at h
    simp only [bind, Except.bind] at h
    refine ⟨x, rfl, ?_⟩
    split at h
    · split at h
      · cases h
      · cases h; simp
    · split at h <;> (cases h; simp)

/-- The time limit is not reached. -/
theorem exec_time {cfg : Cfg} {V G α : Type} {W : Wrappers cfg V G} {φ : List ℝ → V} {ψ : List (List ℝ) → G} (hW : PassOn W φ ψ)
    {clock : Nat → ℝ} (hc : ∀ n, clock n ≤ cfg.maxWall) : ∀ (A : Alg V G α) (st : St cfg.F cfg.C),
    (exec W clock A st).1 ≠ .error .wallTime
  | .ret _, _ => by simp [exec]
  | .fail _, _ => by simp [exec]
  | .cost v k, st => by
    simp only [exec]
    rw [hW.cost]
    have ht : ¬ cfg.maxWall < clock st.calls := not_lt.2 (hc _)
    rcases hcw : costWrapper cfg { st with heap := st.heap ++ [v] } st.heap.length (clock st.calls) with ⟨e | b, st1⟩
    · simp only [ne_eq, Except.error.injEq]
      rintro rfl
      unfold costWrapper at hcw
      rw [if_neg ht] at hcw
      split at hcw
      · simp at hcw
      · split at hcw
        · simp at hcw
        · simp only at hcw
          split at hcw <;> simp at hcw
    · exact exec_time hW hc (k _) st1
  | .jac v k, st => by
    simp only [exec]
    cases hJ : W.jac with
    | none => simp
    | some J =>
      simp only
      rw [hW.jac J hJ]
      rcases jacWrapper cfg st v with ⟨e | b, st1⟩
      · simp
      · exact exec_time hW hc (k _) st1

theorem mem_recorded {cfg : Cfg} {es : List Event} (hn : ∀ e ∈ es, e.isWrite = false) (hs : cfg.save = true) {x : Pulse ℝ cfg.C}
    (hx : x ∈ (evaluations cfg 0 es).map Prod.fst) : x ∈ recordedPars cfg (run cfg (prepared cfg.F cfg.C) es).2 := by
  have h := run_inv cfg es _ [] (prepared_inv cfg) hn
  simp only [List.nil_append] at h
  rw [pars_of_inv h hs]
  exact hx

/-! ### An optimizer and two algorithms for the examples -/

/-- The square of the first parameter as the only cost. -/
noncomputable def square (method : String) (bounds : Option (List (List EReal))) : Opt 1 where
  F := 1
  conditions := ⟨0, 0, 1, 0, 5, 0⟩
  weights := none
  save := true
  useJac := false
  store := false
  method := method
  bounds := bounds
  indices := ["square"]
  sim _ y := .ok [(y.headD 0 0) ^ 2]
  jac _ _ := .error .valueError

/-- The initial point and half of it: the better one. -/
noncomputable def halve (args : MinArgs) : Alg ℝ (List ℝ) MinResult :=
  .cost args.x0 fun a => .cost (args.x0.map (· / 2)) fun b =>
    if b ≤ a then .ret ⟨args.x0.map (· / 2), b, some [], 2, "half", 0⟩ else .ret ⟨args.x0, a, some [], 2, "initial", 0⟩

noncomputable def halveSquares (args : LsqArgs) : Alg (List ℝ) (List (List ℝ)) LsqResult :=
  .cost args.x0 fun a => .cost (args.x0.map (· / 2)) fun b =>
    if squares b ≤ squares a then .ret ⟨args.x0.map (· / 2), b, [], 2, "half", 0⟩ else .ret ⟨args.x0, a, [], 2, "initial", 0⟩

theorem halve_contracts : MinHonest halve ∧ MinDescends halve := by
  have key : ∀ args f g r pts, (halve args).answer f g = .ok (r, pts) → ∃ a b, f args.x0 = .ok a ∧ f (args.x0.map (· / 2)) = .ok b ∧
      pts = [args.x0, args.x0.map (· / 2)] ∧
      (r.x = args.x0.map (· / 2) ∧ r.cost = b ∧ b ≤ a ∨ r.x = args.x0 ∧ r.cost = a) := by
    intro args f g r pts h
    simp only [halve, Alg.answer] at h
    cases ha : f args.x0 with
    | error e => simp [ha] at h
    | ok a =>
      cases hb : f (args.x0.map (· / 2)) with
      | error e => simp [ha, hb] at h
      | ok b =>
        by_cases hab : b ≤ a
        · simp only [ha, hb, hab, if_true, Alg.answer, Except.ok.injEq, Prod.mk.injEq] at h
          obtain ⟨rfl, rfl⟩ := h
          exact ⟨a, b, rfl, rfl, rfl, .inl ⟨rfl, rfl, hab⟩⟩
        · simp only [ha, hb, hab, if_false, Alg.answer, Except.ok.injEq, Prod.mk.injEq] at h
          obtain ⟨rfl, rfl⟩ := h
          exact ⟨a, b, rfl, rfl, rfl, .inr ⟨rfl, rfl⟩⟩
  constructor
  · intro args f g r pts h
    obtain ⟨a, b, h1, h2, rfl, ⟨h3, h4, -⟩ | ⟨h3, h4⟩⟩ := key args f g r pts h
    · rw [h3, h4, h2]; simp
    · rw [h3, h4, h1]; simp
  · intro args f g r pts v h hv
    obtain ⟨a, b, h1, h2, rfl, ⟨h3, h4, h5⟩ | ⟨h3, h4⟩⟩ := key args f g r pts h
    · rw [h1] at hv; cases hv; rw [h4]; exact h5
    · rw [h1] at hv; cases hv; rw [h4]

theorem halveSquares_contracts : LsqHonest halveSquares ∧ LsqDescends halveSquares := by
  have key : ∀ args f g r pts, (halveSquares args).answer f g = .ok (r, pts) → ∃ a b, f args.x0 = .ok a ∧ f (args.x0.map (· / 2)) = .ok b ∧
      pts = [args.x0, args.x0.map (· / 2)] ∧
      (r.x = args.x0.map (· / 2) ∧ r.cost = b ∧ squares b ≤ squares a ∨ r.x = args.x0 ∧ r.cost = a) := by
    intro args f g r pts h
    simp only [halveSquares, Alg.answer] at h
    cases ha : f args.x0 with
    | error e => simp [ha] at h
    | ok a =>
      cases hb : f (args.x0.map (· / 2)) with
      | error e => simp [ha, hb] at h
      | ok b =>
        by_cases hab : squares b ≤ squares a
        · simp only [ha, hb, hab, if_true, Alg.answer, Except.ok.injEq, Prod.mk.injEq] at h
          obtain ⟨rfl, rfl⟩ := h
          exact ⟨a, b, rfl, rfl, rfl, .inl ⟨rfl, rfl, hab⟩⟩
        · simp only [ha, hb, hab, if_false, Alg.answer, Except.ok.injEq, Prod.mk.injEq] at h
          obtain ⟨rfl, rfl⟩ := h
          exact ⟨a, b, rfl, rfl, rfl, .inr ⟨rfl, rfl⟩⟩
  constructor
  · intro args f g r pts h
    obtain ⟨a, b, h1, h2, rfl, ⟨h3, h4, -⟩ | ⟨h3, h4⟩⟩ := key args f g r pts h
    · rw [h3, h4, h2]; simp
    · rw [h3, h4, h1]; simp
  · intro args f g r pts v h hv
    obtain ⟨a, b, h1, h2, rfl, ⟨h3, h4, h5⟩ | ⟨h3, h4⟩⟩ := key args f g r pts h
    · rw [h1] at hv; cases hv; rw [h4]; exact h5
    · rw [h1] at hv; cases hv; rw [h4]

theorem exec_cost {cfg : Cfg} {V G α : Type} {W : Wrappers cfg V G} {φ : List ℝ → V} {ψ : List (List ℝ) → G} (hW : PassOn W φ ψ)
    (clock : Nat → ℝ) (v : List ℝ) (k : V → Alg V G α) (st : St cfg.F cfg.C) (ht : ¬ cfg.maxWall < clock st.calls) {y : Pulse ℝ cfg.C}
    {c c' : List ℝ} (hy : unflatten cfg.T cfg.C v = .ok y) (hv : cfg.sim st.calls y = .ok c) (hg : weigh cfg.weights c = .ok c') :
    ∃ st', exec W clock (.cost v k) st = exec W clock (k (φ c')) st' ∧ st'.calls = st.calls + 1 := by
  obtain ⟨st', hr, h1, -⟩ := costWrapper_ok cfg st v (clock st.calls) y c ht hy hv
  refine ⟨st', ?_, hr.2.1⟩
  have hc : deref st'.heap (st.heap.length + 1) = c' := by rw [hr.1]; simp [deref, stored, hg]
  simp only [exec]
  rw [hW.cost, (h1 c' hg).2]
  simp only [hc]

theorem square_unflatten (x : ℝ) : unflatten 1 1 [x] = .ok [fun _ => x] := by
  simp only [unflatten]
  rw [if_pos (by simp)]
  congr 1
  simp

theorem square_flatten (x : ℝ) : flattenT [fun _ : Fin 1 => x] = [x] := by simp [flattenT, List.finRange_succ]

/-- The algorithm from the parameter 2: half of it. -/
theorem halve_exec (method : String) (b) (args : MinArgs) (hx0 : args.x0 = [2]) (clock : Nat → ℝ) (hc : ∀ n, clock n ≤ 1) (j : Bool) :
    ∃ st, exec (scalarWrappers ((square method b).cfg true 1) j) clock (halve args) (prepared 1 1) =
      (.ok ⟨[1], 1, some [], 2, "half", 0⟩, st) := by
  have hW := passOn_scalar (cfg := (square method b).cfg true 1) j
  obtain ⟨st1, e1, -⟩ := exec_cost hW clock [2]
    (fun a => .cost [1] fun b => if b ≤ a then .ret (⟨[1], b, some [], 2, "half", 0⟩ : MinResult) else
      .ret ⟨[2], a, some [], 2, "initial", 0⟩) (prepared 1 1) (c := [4]) (c' := [4]) (not_lt.2 (hc _)) (square_unflatten 2)
      (by simp [square]; norm_num) rfl
  obtain ⟨st2, e2, -⟩ := exec_cost hW clock [1]
    (fun b => if b ≤ [(4 : ℝ)].sum then .ret (⟨[1], b, some [], 2, "half", 0⟩ : MinResult) else
      .ret ⟨[2], [(4 : ℝ)].sum, some [], 2, "initial", 0⟩) st1 (c := [1]) (c' := [1]) (not_lt.2 (hc _)) (square_unflatten 1)
      (by simp [square]) rfl
  refine ⟨st2, ?_⟩
  have h2 : ([2] : List ℝ).map (· / 2) = [1] := by norm_num
  unfold halve
  rw [hx0, h2]
  rw [e1, e2, if_pos (by norm_num)]
  simp [exec]

theorem halveSquares_exec (method : String) (b) (args : LsqArgs) (hx0 : args.x0 = [2]) (clock : Nat → ℝ) (hc : ∀ n, clock n ≤ 1) (j : Bool) :
    ∃ st, exec (arrayWrappers ((square method b).cfg false 1) j) clock (halveSquares args) (prepared 1 1) =
      (.ok ⟨[1], [1], [], 2, "half", 0⟩, st) := by
  have hW := passOn_array (cfg := (square method b).cfg false 1) j
  obtain ⟨st1, e1, -⟩ := exec_cost hW clock [2]
    (fun a => .cost [1] fun b => if squares b ≤ squares a then .ret (⟨[1], b, [], 2, "half", 0⟩ : LsqResult) else
      .ret ⟨[2], a, [], 2, "initial", 0⟩) (prepared 1 1) (c := [4]) (c' := [4]) (not_lt.2 (hc _)) (square_unflatten 2)
      (by simp [square]; norm_num) rfl
  obtain ⟨st2, e2, -⟩ := exec_cost hW clock [1]
    (fun b => if squares b ≤ squares [4] then .ret (⟨[1], b, [], 2, "half", 0⟩ : LsqResult) else
      .ret ⟨[2], [4], [], 2, "initial", 0⟩) st1 (c := [1]) (c' := [1]) (not_lt.2 (hc _)) (square_unflatten 1)
      (by simp [square]) rfl
  refine ⟨st2, ?_⟩
  have h2 : ([2] : List ℝ).map (· / 2) = [1] := by norm_num
  unfold halveSquares
  rw [hx0, h2]
  rw [e1, id, e2, id, if_pos (by simp [squares])]
  simp [exec]

theorem runScalar_of {C : Nat} {alg : MinArgs → Alg ℝ (List ℝ) MinResult} {o : Opt C} {clock : Nat → ℝ} {y : Pulse ℝ C} {res : MinResult}
    {R : Report C} {st : St o.F C}
    (e : exec (scalarWrappers (o.cfg true y.length) (minArgs o y).jac) clock (alg (minArgs o y)) (prepared o.F C) = (.ok res, st))
    (hr : minReport o y.length res = .ok R) : runScalar alg o clock y = (.ok R, st) := by
  unfold runScalar
  simp only [e, hr]

theorem runLsq_of {C : Nat} {alg : LsqArgs → Alg (List ℝ) (List (List ℝ)) LsqResult} {o : Opt C} {clock : Nat → ℝ} {y : Pulse ℝ C}
    {res : LsqResult} {st : St o.F C} {x : Pulse ℝ C}
    (e : exec (arrayWrappers (o.cfg false y.length) o.useJac) clock (lsqCall alg o y) (prepared o.F C) = (.ok res, st))
    (hr : unflatten y.length C res.x = .ok x) : ∃ R, runLsq alg o clock y = (.ok R, st) := by
  unfold runLsq
  simp only [e, hr]
  exact ⟨_, rfl⟩

theorem halve_run (method : String) (b) (clock : Nat → ℝ) (hc : ∀ n, clock n ≤ 1) :
    ∃ r st, runScalar halve (square method b) clock [fun _ => 2] = (.ok r, st) := by
  obtain ⟨st, e⟩ := halve_exec method b (minArgs (square method b) [fun _ => 2]) (by rw [minArgs_x0, square_flatten]) clock hc
    (minArgs (square method b) [fun _ => 2]).jac
  have : ∃ r, minReport (square method b) 1 ⟨[1], 1, some [], 2, "half", 0⟩ = .ok r := by
    unfold minReport
    simp only [square_unflatten, bind, Except.bind]
    split
    · exact ⟨_, rfl⟩
    · split <;> exact ⟨_, rfl⟩
  obtain ⟨r, hr⟩ := this
  exact ⟨r, st, runScalar_of e hr⟩

/-- Bounds 0 and 3 for the only parameter. -/
theorem square_call (alg : LsqArgs → Alg (List ℝ) (List (List ℝ)) LsqResult) :
    lsqCall alg (square "trf" (some [[((0 : ℝ) : EReal)], [((3 : ℝ) : EReal)]])) [fun _ => 2] =
      alg ⟨[2], false, [((0 : ℝ) : EReal)], [((3 : ℝ) : EReal)], "trf", 0, 0, 0, 5⟩ := by
  unfold lsqCall leastSquares
  rw [if_neg (by simp [square])]
  simp only [square, square_flatten]
  rw [if_neg (by norm_num), if_neg (by simp), if_neg (by simp), if_neg, if_neg]
  · rintro ⟨i, hi, h⟩
    have : i = 0 := by simpa using hi
    subst this
    refine h ⟨?_, ?_⟩
    · simp only [List.getD_cons_zero]
      exact EReal.coe_le_coe_iff.2 (by norm_num)
    · simp only [List.getD_cons_zero]
      exact EReal.coe_le_coe_iff.2 (by norm_num)
  · rintro ⟨i, hi, h⟩
    have : i = 0 := by simpa using hi
    subst this
    simp only [List.getD_cons_zero] at h
    exact absurd h (not_le.2 (EReal.coe_lt_coe_iff.2 (by norm_num)))

theorem halveSquares_run (clock : Nat → ℝ) (hc : ∀ n, clock n ≤ 1) :
    ∃ r st, runLsq halveSquares (square "trf" (some [[((0 : ℝ) : EReal)], [((3 : ℝ) : EReal)]])) clock [fun _ => 2] = (.ok r, st) := by
  have hl := square_call halveSquares
  obtain ⟨st, e⟩ := halveSquares_exec "trf" (some [[((0 : ℝ) : EReal)], [((3 : ℝ) : EReal)]]) ⟨[2], false, [((0 : ℝ) : EReal)], [((3 : ℝ) : EReal)], "trf", 0, 0, 0, 5⟩ rfl clock hc false
  obtain ⟨R, hR⟩ := runLsq_of (o := square "trf" (some [[((0 : ℝ) : EReal)], [((3 : ℝ) : EReal)]])) (y := [fun _ => 2]) (hl ▸ e) (square_unflatten 1)
  exact ⟨R, st, hR⟩

theorem exec_cost_late {cfg : Cfg} {V G α : Type} {W : Wrappers cfg V G} {φ : List ℝ → V} {ψ : List (List ℝ) → G} (hW : PassOn W φ ψ)
    (clock : Nat → ℝ) (v : List ℝ) (k : V → Alg V G α) (st : St cfg.F cfg.C) (ht : cfg.maxWall < clock st.calls) :
    (exec W clock (.cost v k) st).1 = .error .wallTime := by
  simp only [exec]
  rw [hW.cost]
  simp [costWrapper, ht]

/-- With two units of time for each evaluation the limit of one unit ends the runs at the second evaluation. -/
theorem halve_late (method : String) (b) (args : MinArgs) (hx0 : args.x0 = [2]) (j : Bool) :
    (exec (scalarWrappers ((square method b).cfg true 1) j) (fun n => 2 * n) (halve args) (prepared 1 1)).1 = .error .wallTime := by
  have hW := passOn_scalar (cfg := (square method b).cfg true 1) j
  unfold halve
  rw [hx0]
  obtain ⟨st1, e1, e2⟩ := exec_cost hW (fun n => 2 * n) [2]
    (fun a => .cost (([2] : List ℝ).map (· / 2)) fun b => if b ≤ a then
      .ret (⟨([2] : List ℝ).map (· / 2), b, some [], 2, "half", 0⟩ : MinResult) else
      .ret ⟨[2], a, some [], 2, "initial", 0⟩) (prepared 1 1) (c := [4]) (c' := [4]) (by simp [prepared, square]) (square_unflatten 2)
      (by simp [square]; norm_num) rfl
  rw [e1]
  exact exec_cost_late hW _ _ _ _ (by simp [e2, square, prepared])

theorem halveSquares_late (method : String) (b) (args : LsqArgs) (hx0 : args.x0 = [2]) (j : Bool) :
    (exec (arrayWrappers ((square method b).cfg false 1) j) (fun n => 2 * n) (halveSquares args) (prepared 1 1)).1 = .error .wallTime := by
  have hW := passOn_array (cfg := (square method b).cfg false 1) j
  unfold halveSquares
  rw [hx0]
  obtain ⟨st1, e1, e2⟩ := exec_cost hW (fun n => 2 * n) [2]
    (fun a => .cost (([2] : List ℝ).map (· / 2)) fun b => if squares b ≤ squares a then
      .ret (⟨([2] : List ℝ).map (· / 2), b, [], 2, "half", 0⟩ : LsqResult) else
      .ret ⟨[2], a, [], 2, "initial", 0⟩) (prepared 1 1) (c := [4]) (c' := [4]) (by simp [prepared, square]) (square_unflatten 2)
      (by simp [square]; norm_num) rfl
  rw [e1]
  exact exec_cost_late hW _ _ _ _ (by simp [e2, square, prepared])

theorem timeout_noJac_ok {C : Nat} (o : Opt C) (scalar : Bool) (T : Nat) (st : St o.F C) (hj : o.useJac = false) :
    ∃ r st', timeout o scalar T st = (.ok r, st') := by
  unfold timeout writeState
  simp only [hj]
  exact ⟨_, _, rfl⟩

theorem runScalar_late {C : Nat} {alg : MinArgs → Alg ℝ (List ℝ) MinResult} {o : Opt C} (hj : o.useJac = false) {clock : Nat → ℝ}
    {y : Pulse ℝ C} (h : (exec (scalarWrappers (o.cfg true y.length) (minArgs o y).jac) clock (alg (minArgs o y)) (prepared o.F C)).1 =
      .error .wallTime) : ∃ r st, runScalar alg o clock y = (.ok r, st) := by
  unfold runScalar
  simp only
  rcases hx : exec (scalarWrappers (o.cfg true y.length) (minArgs o y).jac) clock (alg (minArgs o y)) (prepared o.F C) with ⟨e, st⟩
  rw [hx] at h
  subst h
  exact timeout_noJac_ok _ _ _ _ hj

theorem runLsq_late {C : Nat} {alg : LsqArgs → Alg (List ℝ) (List (List ℝ)) LsqResult} {o : Opt C} (hj : o.useJac = false)
    {clock : Nat → ℝ} {y : Pulse ℝ C}
    (h : (exec (arrayWrappers (o.cfg false y.length) o.useJac) clock (lsqCall alg o y) (prepared o.F C)).1 = .error .wallTime) :
    ∃ r st, runLsq alg o clock y = (.ok r, st) := by
  unfold runLsq
  simp only
  rcases hx : exec (arrayWrappers (o.cfg false y.length) o.useJac) clock (lsqCall alg o y) (prepared o.F C) with ⟨e, st⟩
  rw [hx] at h
  subst h
  exact timeout_noJac_ok _ _ _ _ hj

theorem halve_late_run (method : String) (b) :
    ∃ r st, runScalar halve (square method b) (fun n => 2 * n) [fun _ => 2] = (.ok r, st) :=
  runScalar_late rfl (halve_late method b (minArgs (square method b) [fun _ => 2]) (by rw [minArgs_x0, square_flatten])
    (minArgs (square method b) [fun _ => 2]).jac)

theorem halveSquares_late_run :
    ∃ r st, runLsq halveSquares (square "trf" (some [[((0 : ℝ) : EReal)], [((3 : ℝ) : EReal)]])) (fun n => 2 * n) [fun _ => 2] =
      (.ok r, st) := by
  have h := halveSquares_late "trf" (some [[((0 : ℝ) : EReal)], [((3 : ℝ) : EReal)]])
    ⟨[2], false, [((0 : ℝ) : EReal)], [((3 : ℝ) : EReal)], "trf", 0, 0, 0, 5⟩ rfl false
  rw [← square_call halveSquares] at h
  exact runLsq_late rfl h

/-- **C133** A run of the `ScalarMinimizingOptimizer` which the time limit does not end, with any method: the final parameters are a
pulse that was simulated in the run (and is in the summary, if the steps are saved), the final cost is the weighted sum of the costs
which the simulator returns for them, the labels are those of the simulator, and the final cost is not larger than that of the initial
pulse.  Contracts: the algorithm returns a point it asked for and the value it got there (`MinHonest`), and one that is not worse than
the initial point (`MinDescends`). -/
theorem c133_scalar {C : Nat} (alg : MinArgs → Alg ℝ (List ℝ) MinResult) (halg : MinHonest alg) (o : Opt C) (clock : Nat → ℝ)
    (y : Pulse ℝ C) (S : Pulse ℝ C → Except PyErr (List ℝ)) (J : Pulse ℝ C → Except PyErr (Grads ℝ o.F C))
    (hS : ∀ n y, o.sim n y = S y) (hJ : ∀ n y, o.jac n y = J y) (hc : ∀ n, clock n ≤ o.conditions.maxWallTime)
    (r : Report C) (st : St o.F C) (h : runScalar alg o clock y = (.ok r, st)) :
    ∃ x c, r.finalParameters = some x ∧ x.length = y.length ∧ S x = .ok c ∧
      r.finalCost = some (.number (weighted o.weights c).sum) ∧ r.indices = some o.indices ∧
      (o.save = true → x ∈ recordedPars (o.cfg true y.length) st) ∧
      (MinDescends alg → ∀ c₀, S y = .ok c₀ → FitsWeights o.weights c₀.length →
        (weighted o.weights c).sum ≤ (weighted o.weights c₀).sum) := by
  unfold runScalar at h
  simp only at h
  have hW := passOn_scalar (cfg := o.cfg true y.length) (minArgs o y).jac
  obtain ⟨e1, -, -⟩ := exec_run hW clock (alg (minArgs o y)) (prepared o.F C)
  have ht := exec_time hW (clock := clock) hc (alg (minArgs o y)) (prepared o.F C)
  have ha := exec_answer hW clock (S := S) (J := J) hS hJ (alg (minArgs o y)) (prepared o.F C)
  rcases hx : exec (scalarWrappers (o.cfg true y.length) (minArgs o y).jac) clock (alg (minArgs o y)) (prepared o.F C) with ⟨e | res, st1⟩
  · rw [hx] at h ht
    cases e with
    | wallTime => exact absurd rfl ht
    | py e => cases h
  · rw [hx] at h ha e1
    simp only at h e1
    obtain ⟨pts, p1, p2⟩ := ha res rfl
    obtain ⟨q1, q2⟩ := halg _ _ _ _ _ p1
    obtain ⟨x, c, k1, k2, k3⟩ := objective_ok q2
    cases hr : minReport o y.length res with
    | error e => rw [hr] at h; cases h
    | ok R =>
      rw [hr] at h
      simp only [Prod.mk.injEq, Except.ok.injEq] at h
      obtain ⟨rfl, rfl⟩ := h
      obtain ⟨x', m1, m2, m3, m4, -⟩ := minReport_fields hr
      have hxx : x' = x := by
        have : unflatten y.length C res.x = .ok x := k1
        rw [m1] at this
        cases this; rfl
      subst hxx
      refine ⟨x', c, m4, (unflatten_ok k1).2.1, k2, by rw [m2, k3], m3, fun hs => ?_, fun hd c₀ h0 hw => ?_⟩
      · rw [e1]
        refine mem_recorded (cfg := o.cfg true y.length) (events_noWrite _ _ _ _) hs ?_
        have : Except.ok x' ∈ List.map (unflatten (o.cfg true y.length).T (o.cfg true y.length).C) pts :=
          List.mem_map.2 ⟨_, q1, k1⟩
        rw [p2] at this
        obtain ⟨e, he1, he2⟩ := List.mem_map.1 this
        cases he2
        exact List.mem_map.2 ⟨e, he1, rfl⟩
      · have := hd _ _ _ _ _ _ p1 (by rw [minArgs_x0]; exact objective_initial (cfg := o.cfg true y.length) rfl h0 hw)
        rw [k3] at this
        exact this

/-- Half of the initial parameter, with L-BFGS-B. -/
example : ∃ r st, runScalar halve (square "L-BFGS-B" none) (fun _ => 0) [fun _ => 2] = (.ok r, st) ∧
    ∃ x c, r.finalParameters = some x ∧ r.finalCost = some (.number (weighted none c).sum) ∧
      x ∈ recordedPars ((square "L-BFGS-B" none).cfg true 1) st ∧ (weighted none c).sum ≤ 4 := by
  obtain ⟨r, st, h⟩ := halve_run "L-BFGS-B" none (fun _ => 0) (by simp)
  obtain ⟨x, c, h1, -, -, h2, -, h3, h4⟩ := c133_scalar halve halve_contracts.1 (square "L-BFGS-B" none) _ _
    (fun y => .ok [(y.headD 0 0) ^ 2]) (fun _ => .error .valueError) (fun _ _ => rfl) (fun _ _ => rfl) (by simp [square]) r st h
  refine ⟨r, st, h, x, c, h1, h2, h3 rfl, (h4 halve_contracts.2 [4] (by simp; norm_num) (by simp [square, FitsWeights])).trans ?_⟩
  simp [weighted, square, weightAt]

/-- What the checks of `least_squares` let pass. -/
theorem lsqCall_cases {C : Nat} (alg : LsqArgs → Alg (List ℝ) (List (List ℝ)) LsqResult) (o : Opt C) (y : Pulse ℝ C) :
    (∃ e, lsqCall alg o y = .fail e) ∨ ∃ args, lsqCall alg o y = alg args ∧ args.x0 = flattenT y ∧ args.jac = o.useJac ∧
      o.bounds = some [args.lower, args.upper] ∧ args.lower.length = (flattenT y).length ∧ args.upper.length = (flattenT y).length ∧
      args.method = o.method ∧ args.ftol = o.conditions.minCostGain ∧ args.xtol = o.conditions.minAmplitudeChange ∧
      args.gtol = o.conditions.minGradientNorm ∧ args.maxNfev = o.conditions.maxIterations := by
  unfold lsqCall leastSquares
  split
  · exact .inl ⟨_, rfl⟩
  · split
    · exact .inl ⟨_, rfl⟩
    · next lb ub hb =>
      split
      · exact .inl ⟨_, rfl⟩
      split
      · exact .inl ⟨_, rfl⟩
      split
      · exact .inl ⟨_, rfl⟩
      · next hl =>
        push Not at hl
        split
        · exact .inl ⟨_, rfl⟩
        split
        · exact .inl ⟨_, rfl⟩
        · exact .inr ⟨_, rfl, rfl, rfl, hb, hl.1, hl.2, rfl, rfl, rfl, rfl, rfl⟩
    · exact .inl ⟨_, rfl⟩

/-- **C133** The same for the `LeastSquaresOptimizer`: the final cost is the array of the weighted costs, and the sum of the squares of
the weighted costs is not larger than at the initial pulse. -/
theorem c133_least_squares {C : Nat} (alg : LsqArgs → Alg (List ℝ) (List (List ℝ)) LsqResult) (halg : LsqHonest alg) (o : Opt C)
    (clock : Nat → ℝ) (y : Pulse ℝ C) (S : Pulse ℝ C → Except PyErr (List ℝ)) (J : Pulse ℝ C → Except PyErr (Grads ℝ o.F C))
    (hS : ∀ n y, o.sim n y = S y) (hJ : ∀ n y, o.jac n y = J y) (hc : ∀ n, clock n ≤ o.conditions.maxWallTime)
    (r : Report C) (st : St o.F C) (h : runLsq alg o clock y = (.ok r, st)) :
    ∃ x c, r.finalParameters = some x ∧ x.length = y.length ∧ S x = .ok c ∧
      r.finalCost = some (.array (weighted o.weights c)) ∧ r.indices = some o.indices ∧
      (o.save = true → x ∈ recordedPars (o.cfg false y.length) st) ∧
      (LsqDescends alg → ∀ c₀, S y = .ok c₀ → FitsWeights o.weights c₀.length →
        squares (weighted o.weights c) ≤ squares (weighted o.weights c₀)) := by
  unfold runLsq at h
  simp only at h
  have hW := passOn_array (cfg := o.cfg false y.length) o.useJac
  rcases lsqCall_cases alg o y with ⟨e, he⟩ | ⟨args, he, hx0, -⟩
  · rw [he] at h
    cases h
  rw [he] at h
  obtain ⟨e1, -, -⟩ := exec_run hW clock (alg args) (prepared o.F C)
  have ht := exec_time hW (clock := clock) hc (alg args) (prepared o.F C)
  have ha := exec_answer hW clock (S := S) (J := J) hS hJ (alg args) (prepared o.F C)
  rcases hx : exec (arrayWrappers (o.cfg false y.length) o.useJac) clock (alg args) (prepared o.F C) with ⟨e | res, st1⟩
  · rw [hx] at h ht
    cases e with
    | wallTime => exact absurd rfl ht
    | py e => cases h
  · rw [hx] at h ha e1
    simp only at h e1
    obtain ⟨pts, p1, p2⟩ := ha res rfl
    obtain ⟨q1, q2⟩ := halg _ _ _ _ _ p1
    obtain ⟨x, c, k1, k2, k3⟩ := objective_ok q2
    have k1' : unflatten y.length C res.x = .ok x := k1
    rw [k1'] at h
    simp only [Prod.mk.injEq, Except.ok.injEq] at h
    obtain ⟨rfl, rfl⟩ := h
    refine ⟨x, c, rfl, (unflatten_ok k1).2.1, k2, by simp only [k3]; rfl, rfl, fun hs => ?_, fun hd c₀ h0 hw => ?_⟩
    · rw [e1]
      refine mem_recorded (cfg := o.cfg false y.length) (events_noWrite _ _ _ _) hs ?_
      have : Except.ok x ∈ List.map (unflatten (o.cfg false y.length).T (o.cfg false y.length).C) pts := List.mem_map.2 ⟨_, q1, k1⟩
      rw [p2] at this
      obtain ⟨e, he1, he2⟩ := List.mem_map.1 this
      cases he2
      exact List.mem_map.2 ⟨e, he1, rfl⟩
    · have := hd _ _ _ _ _ _ p1 (by rw [hx0]; exact objective_initial (cfg := o.cfg false y.length) rfl h0 hw)
      rw [k3] at this
      exact this

example : ∃ r st, runLsq halveSquares (square "trf" (some [[((0 : ℝ) : EReal)], [((3 : ℝ) : EReal)]])) (fun _ => 0) [fun _ => 2] = (.ok r, st) ∧
    ∃ x c, r.finalParameters = some x ∧ r.finalCost = some (.array (weighted none c)) := by
  obtain ⟨r, st, h⟩ := halveSquares_run (fun _ => 0) (by simp)
  obtain ⟨x, c, h1, -, -, h2, -⟩ := c133_least_squares halveSquares halveSquares_contracts.1 (square "trf" (some [[((0 : ℝ) : EReal)], [((3 : ℝ) : EReal)]])) _ _
    (fun y => .ok [(y.headD 0 0) ^ 2]) (fun _ => .error .valueError) (fun _ _ => rfl) (fun _ _ => rfl) (by simp [square]) r st h
  exact ⟨r, st, h, x, c, h1, h2⟩

/-- Producing the result of a timed-out run leaves the remembered minimum alone. -/
theorem writeState_fields {cfg : Cfg} {st st' : St cfg.F cfg.C} {r : TimeoutResult cfg.C} (h : writeState cfg st = (.ok r, st')) :
    r.finalCost = st.minCosts.map (deref st.heap) ∧ r.finalParameters = st.minPar.map (viewPar cfg st) ∧ r.status = 5 ∧
      r.numIter = st.nCost := by
  unfold writeState at h
  cases hj : cfg.useJac with
  | false =>
    rw [hj] at h
    simp only [Prod.mk.injEq, Except.ok.injEq] at h
    obtain ⟨rfl, rfl⟩ := h
    simp
  | true =>
    rw [hj] at h
    simp only at h
    split at h
    · simp at h
    · next a ha =>
      split at h
      · simp at h
      · next j st1 hown =>
        simp only [Prod.mk.injEq, Except.ok.injEq] at h
        obtain ⟨rfl, rfl⟩ := h
        have hk : st1.heap = st.heap ∧ st1.minCosts = st.minCosts ∧ st1.minPar = st.minPar ∧ st1.nCost = st.nCost := by
          have hf : ∀ v, (jacWrapper cfg st v).2.heap = st.heap ∧ (jacWrapper cfg st v).2.minCosts = st.minCosts ∧
              (jacWrapper cfg st v).2.minPar = st.minPar ∧ (jacWrapper cfg st v).2.nCost = st.nCost := fun v => by
            obtain ⟨f1, _, _, _, f5, f6⟩ := jacWrapper_frame cfg st v
            refine ⟨f1, f5, f6, ?_⟩
            unfold jacWrapper
            split
            · rfl
            · split
              · rfl
              · simp only
                split <;> split <;> rfl
          have := hf (rowMajor (viewPar cfg st a))
          unfold ownJac scalarJac at hown
          cases hsc : cfg.scalar <;> simp only [hsc] at hown <;>
          · split at hown
            · simp at hown
            · next h5 => rw [h5] at this; simp only [Prod.mk.injEq] at hown; rw [hown.2] at this; exact this
        have hv : viewPar cfg st1 = viewPar cfg st := by funext b; simp [viewPar, hk.1]
        simp [hk.1, hk.2.1, hk.2.2.1, hk.2.2.2, hv]

theorem timeout_best {C : Nat} {o : Opt C} {scalar : Bool} {y : Pulse ℝ C} {V G α : Type} {W : Wrappers (o.cfg scalar y.length) V G}
    {φ : List ℝ → V} {ψ : List (List ℝ) → G} (hW : PassOn W φ ψ) {clock : Nat → ℝ} {k : V → Alg V G α} {st1 st : St o.F C} {r : Report C}
    {S : Pulse ℝ C → Except PyErr (List ℝ)} (hS : ∀ n y, o.sim n y = S y) (hw : o.weights = none)
    (h0 : clock 0 ≤ o.conditions.maxWallTime) {c₀ : List ℝ} (hc : S y = .ok c₀)
    (hx : exec W clock (.cost (flattenT y) k) (prepared o.F C) = (.error .wallTime, st1))
    (h : timeout o scalar y.length st1 = (.ok r, st)) :
    ∃ x c, r.finalParameters = some x ∧ S x = .ok c ∧ r.finalCost = some (.array c) ∧ r.status = some 5 ∧ norm c ≤ norm c₀ := by
  obtain ⟨e1, -, -⟩ := exec_run hW clock (.cost (flattenT y) k) (prepared o.F C)
  rw [hx] at e1
  simp only at e1
  unfold timeout at h
  rcases hws : writeState (o.cfg scalar y.length) st1 with ⟨e | tr, st2⟩
  · rw [hws] at h; cases h
  · rw [hws] at h
    simp only [Prod.mk.injEq, Except.ok.injEq] at h
    obtain ⟨rfl, rfl⟩ := h
    obtain ⟨f1, f2, f3, -⟩ := writeState_fields hws
    have hbest := c61_best_partial (o.cfg scalar y.length) hw (events W clock (.cost (flattenT y) k) (prepared o.F C)) (events_noWrite _ _ _ _)
    simp only at hbest
    rw [show (run (o.cfg scalar y.length) (prepared (o.cfg scalar y.length).F (o.cfg scalar y.length).C) (events W clock (.cost (flattenT y) k) (prepared o.F C))).2 = st1 from e1.symm] at hbest
    have hsim : ∀ (es : List Event) (n : Nat), ∀ e ∈ evaluations (o.cfg scalar y.length) n es, S e.1 = .ok e.2 := by
      intro es
      induction es with
      | nil => intro n e he; simp [evaluations] at he
      | cons ev es ih =>
        intro n e he
        cases ev with
        | write a v => exact ih n e he
        | jac v =>
          simp only [evaluations] at he
          split at he
          · simp at he
          · split at he
            · simp at he
            · split at he
              · simp at he
              · exact ih _ e he
        | cost v t =>
          simp only [evaluations] at he
          split at he
          · simp at he
          · split at he
            · simp at he
            · next y' hy' =>
              split at he
              · simp at he
              · next c' hc' =>
                rcases List.mem_cons.1 he with rfl | he
                · exact (hS n y').symm.trans hc'
                · split at he
                  · simp at he
                  · exact ih _ e he
    have hfirst : ∃ l, evaluations (o.cfg scalar y.length) 0 (events W clock (.cost (flattenT y) k) (prepared o.F C)) = (y, c₀) :: l := by
      simp only [events, evaluations]
      have hn : ¬ (o.cfg scalar y.length).maxWall < clock (prepared o.F C).calls := not_lt.2 h0
      have hu : unflatten (o.cfg scalar y.length).T C (flattenT y) = .ok y := c59_unflatten_flatten y
      have hs0 : o.sim 0 y = .ok c₀ := (hS 0 y).trans hc
      rw [if_neg hn, hu]
      simp only [hs0]
      exact ⟨_, rfl⟩
    obtain ⟨l, hl⟩ := hfirst
    rcases hbest with ⟨b1, -⟩ | ⟨i, e, b1, b2, b3, b4⟩
    · rw [hl] at b1; cases b1
    · refine ⟨e.1, e.2, by rw [f2]; exact b4, hsim _ _ e (List.mem_of_getElem? b1), ?_, by simp [f3], ?_⟩
      · rw [f1, b3]
      · obtain ⟨m, m1, m2⟩ := b2
        have he : m = norm e.2 := by
          rw [List.getElem?_map, b1] at m1
          simpa using m1.symm
        have := (m2 0 (norm c₀) (by rw [hl]; rfl)).1
        rwa [he] at this

/-- **C133** (time limit, partial): without weights, and with an algorithm which first asks for the costs of the initial pulse, a run
which the time limit ends returns a pulse with its costs, and the norm of the costs is not larger than for the initial pulse.  Missing:
weights (C61), and the limit being exceeded before the first evaluation (C63). -/
theorem c133_timeout_scalar_partial {C : Nat} (alg : MinArgs → Alg ℝ (List ℝ) MinResult) (k : MinArgs → ℝ → Alg ℝ (List ℝ) MinResult)
    (ha : ∀ args, alg args = .cost args.x0 (k args)) (o : Opt C) (clock : Nat → ℝ) (y : Pulse ℝ C)
    (S : Pulse ℝ C → Except PyErr (List ℝ)) (hS : ∀ n y, o.sim n y = S y) (hw : o.weights = none)
    (h0 : clock 0 ≤ o.conditions.maxWallTime) (c₀ : List ℝ) (hc : S y = .ok c₀) (r : Report C) (st : St o.F C)
    (h : runScalar alg o clock y = (.ok r, st))
    (hx : (exec (scalarWrappers (o.cfg true y.length) (minArgs o y).jac) clock (alg (minArgs o y)) (prepared o.F C)).1 = .error .wallTime) :
    ∃ x c, r.finalParameters = some x ∧ S x = .ok c ∧ r.finalCost = some (.array c) ∧ r.status = some 5 ∧ norm c ≤ norm c₀ := by
  unfold runScalar at h
  simp only at h
  rw [ha, minArgs_x0] at hx h
  generalize k _ = k' at hx h
  rcases hxx : exec (scalarWrappers (o.cfg true y.length) (minArgs o y).jac) clock (.cost (flattenT y) k') (prepared o.F C) with ⟨e, st1⟩
  rw [hxx] at hx h
  simp only at hx
  subst hx
  exact timeout_best (passOn_scalar _) hS hw h0 hc hxx h

example : ∃ r st, runScalar halve (square "L-BFGS-B" none) (fun n => 2 * n) [fun _ => 2] = (.ok r, st) ∧
    r.status = some 5 ∧ ∃ x, r.finalParameters = some x := by
  obtain ⟨r, st, h⟩ := halve_late_run "L-BFGS-B" none
  obtain ⟨x, c, h1, -, -, h2, -⟩ := c133_timeout_scalar_partial halve _ (fun _ => rfl) (square "L-BFGS-B" none) (fun n => 2 * n) _
    (fun y => .ok [(y.headD 0 0) ^ 2]) (fun _ _ => rfl) rfl (by simp [square]) _ rfl r st h
    (halve_late _ _ _ (by rw [minArgs_x0, square_flatten]) _)
  exact ⟨r, st, h, h2, x, h1⟩

@[inherit_doc c133_timeout_scalar_partial]
theorem c133_timeout_least_squares_partial {C : Nat} (alg : LsqArgs → Alg (List ℝ) (List (List ℝ)) LsqResult)
    (k : LsqArgs → List ℝ → Alg (List ℝ) (List (List ℝ)) LsqResult) (ha : ∀ args, alg args = .cost args.x0 (k args)) (o : Opt C)
    (clock : Nat → ℝ) (y : Pulse ℝ C) (S : Pulse ℝ C → Except PyErr (List ℝ)) (hS : ∀ n y, o.sim n y = S y) (hw : o.weights = none)
    (h0 : clock 0 ≤ o.conditions.maxWallTime) (c₀ : List ℝ) (hc : S y = .ok c₀) (r : Report C) (st : St o.F C)
    (h : runLsq alg o clock y = (.ok r, st))
    (hx : (exec (arrayWrappers (o.cfg false y.length) o.useJac) clock (lsqCall alg o y) (prepared o.F C)).1 = .error .wallTime) :
    ∃ x c, r.finalParameters = some x ∧ S x = .ok c ∧ r.finalCost = some (.array c) ∧ r.status = some 5 ∧ norm c ≤ norm c₀ := by
  unfold runLsq at h
  simp only at h
  rcases lsqCall_cases alg o y with ⟨e, he⟩ | ⟨args, he, hx0, -⟩
  · rw [he] at hx
    simp [exec] at hx
  · rw [he, ha, hx0] at hx h
    generalize k _ = k' at hx h
    rcases hxx : exec (arrayWrappers (o.cfg false y.length) o.useJac) clock (.cost (flattenT y) k') (prepared o.F C) with ⟨e, st1⟩
    rw [hxx] at hx h
    simp only at hx
    subst hx
    exact timeout_best (passOn_array _) hS hw h0 hc hxx h

example : ∃ r st, runLsq halveSquares (square "trf" (some [[((0 : ℝ) : EReal)], [((3 : ℝ) : EReal)]])) (fun n => 2 * n) [fun _ => 2] = (.ok r, st) ∧
    r.status = some 5 ∧ ∃ x, r.finalParameters = some x := by
  obtain ⟨r, st, h⟩ := halveSquares_late_run
  have hl := halveSquares_late "trf" (some [[((0 : ℝ) : EReal)], [((3 : ℝ) : EReal)]])
    ⟨[2], false, [((0 : ℝ) : EReal)], [((3 : ℝ) : EReal)], "trf", 0, 0, 0, 5⟩ rfl false
  rw [← square_call halveSquares] at hl
  obtain ⟨x, c, h1, -, -, h2, -⟩ := c133_timeout_least_squares_partial halveSquares _ (fun _ => rfl) (square "trf" (some [[((0 : ℝ) : EReal)], [((3 : ℝ) : EReal)]]))
    (fun n => 2 * n) _ (fun y => .ok [(y.headD 0 0) ^ 2]) (fun _ _ => rfl) rfl (by simp [square]) _ rfl r st h hl
  exact ⟨r, st, h, h2, x, h1⟩

theorem timeout_init {C : Nat} {o : Opt C} {scalar : Bool} {T : Nat} {st st' : St o.F C} {r : Report C}
    (h : timeout o scalar T st = (.ok r, st')) : r.initParameters = none := by
  unfold timeout at h
  split at h
  · cases h
  · cases h; rfl

/-- **C133** fails for the initial parameters: no result of a run holds the amplitudes at the start of the optimisation (documented at
optimization_data.py:87-90). -/
theorem c133_violated_initial {C : Nat} (o : Opt C) (clock : Nat → ℝ) (y : Pulse ℝ C) (r : Report C) (st : St o.F C)
    (h : (∃ alg, runScalar alg o clock y = (.ok r, st)) ∨ ∃ alg, runLsq alg o clock y = (.ok r, st)) : r.initParameters = none := by
  rcases h with ⟨alg, h⟩ | ⟨alg, h⟩
  · unfold runScalar at h
    simp only at h
    split at h
    · exact timeout_init h
    · cases h
    · split at h
      · cases h
      · next hr =>
        cases h
        obtain ⟨_, _, _, _, _, _, _, _, hi⟩ := minReport_fields hr
        exact hi
  · unfold runLsq at h
    simp only at h
    split at h
    · exact timeout_init h
    · cases h
    · split at h
      · cases h
      · cases h; rfl

example : ∃ r st, runScalar halve (square "L-BFGS-B" none) (fun _ => 0) [fun _ => 2] = (.ok r, st) ∧ r.initParameters = none := by
  obtain ⟨r, st, h⟩ := halve_run "L-BFGS-B" none (fun _ => 0) (by simp)
  exact ⟨r, st, h, c133_violated_initial _ _ _ r st (.inl ⟨_, h⟩)⟩

/-! ## C134 -/

section
variable {cfg : Cfg} {V G α : Type}

/-- Without a function for the Jacobian none is evaluated. -/
theorem exec_nJac {W : Wrappers cfg V G} {φ : List ℝ → V} {ψ : List (List ℝ) → G} (hW : PassOn W φ ψ) (hj : W.jac = none)
    (clock : Nat → ℝ) : ∀ (A : Alg V G α) (st : St cfg.F cfg.C),
    (exec W clock A st).2.nJac = st.nJac ∧ (exec W clock A st).2.gradients = st.gradients
  | .ret _, _ => ⟨rfl, rfl⟩
  | .fail _, _ => ⟨rfl, rfl⟩
  | .jac v k, st => by simp [exec, hj]
  | .cost v k, st => by
    simp only [exec]
    rw [hW.cost]
    have hf : (costWrapper cfg { st with heap := st.heap ++ [v] } st.heap.length (clock st.calls)).2.nJac = st.nJac ∧
        (costWrapper cfg { st with heap := st.heap ++ [v] } st.heap.length (clock st.calls)).2.gradients = st.gradients := by
      refine ⟨by unfold costWrapper; split; · rfl
                 split; · rfl
                 split; · rfl
                 simp only; split <;> simp only [apply_ite St.nJac, ite_self], ?_⟩
      unfold costWrapper
      split
      · rfl
      split
      · rfl
      split
      · rfl
      simp only
      split <;> simp only [apply_ite St.gradients, ite_self]
    rcases hc : costWrapper cfg { st with heap := st.heap ++ [v] } st.heap.length (clock st.calls) with ⟨e | b, st1⟩
    · rw [hc] at hf
      exact hf
    · rw [hc] at hf
      obtain ⟨h1, h2⟩ := exec_nJac hW hj clock (k (φ (deref st1.heap b))) st1
      exact ⟨h1.trans hf.1, h2.trans hf.2⟩

/-- The number of Jacobians a returning algorithm was given. -/
theorem exec_asks {W : Wrappers cfg V G} {φ : List ℝ → V} {ψ : List (List ℝ) → G} (hW : PassOn W φ ψ) (clock : Nat → ℝ) :
    ∀ (A : Alg V G α) (st st' : St cfg.F cfg.C) (n : Nat) (a : α), A.Asks n → exec W clock A st = (.ok a, st') → st.nJac + n ≤ st'.nJac
  | .ret _, st, st', n, a, hA, h => by
    simp only [exec, Prod.mk.injEq] at h
    obtain ⟨-, rfl⟩ := h
    rw [show n = 0 from hA]; rfl
  | .fail _, st, st', n, a, hA, h => by simp [exec] at h
  | .cost v k, st, st', n, a, hA, h => by
    simp only [exec] at h
    rw [hW.cost] at h
    have hf : (costWrapper cfg { st with heap := st.heap ++ [v] } st.heap.length (clock st.calls)).2.nJac = st.nJac := by
      unfold costWrapper
      split
      · rfl
      split
      · rfl
      split
      · rfl
      simp only
      split <;> simp only [apply_ite St.nJac, ite_self]
    rcases hc : costWrapper cfg { st with heap := st.heap ++ [v] } st.heap.length (clock st.calls) with ⟨e | b, st1⟩
    · rw [hc] at h; simp at h
    · rw [hc] at h hf
      rw [← hf]
      exact exec_asks hW clock _ st1 st' n a (hA _) h
  | .jac v k, st, st', n, a, hA, h => by
    simp only [exec] at h
    cases hJ : W.jac with
    | none => rw [hJ] at h; simp at h
    | some J =>
      rw [hJ] at h
      simp only at h
      rw [hW.jac J hJ] at h
      rcases hj : jacWrapper cfg st v with ⟨e | b, st1⟩
      · rw [hj] at h; simp at h
      · rw [hj] at h
        have h1 : st1.nJac = st.nJac + 1 := by
          unfold jacWrapper at hj
          split at hj
          · simp at hj
          split at hj
          · simp at hj
          simp only at hj
          split at hj
          · simp at hj
          · simp only [Prod.mk.injEq] at hj
            obtain ⟨-, rfl⟩ := hj
            simp only [apply_ite St.nJac, ite_self]
        have := exec_asks hW clock _ st1 st' (n - 1) a (hA _) h
        omega

/-- The number of evaluations of the costs. -/
theorem exec_within {W : Wrappers cfg V G} {φ : List ℝ → V} {ψ : List (List ℝ) → G} (hW : PassOn W φ ψ) (clock : Nat → ℝ) :
    ∀ (A : Alg V G α) (st : St cfg.F cfg.C) (n : ℝ), 0 ≤ n → A.Within n → ((exec W clock A st).2.nCost : ℝ) ≤ st.nCost + n
  | .ret _, st, n, h0, _ => by simp [exec, h0]
  | .fail _, st, n, h0, _ => by simp [exec, h0]
  | .cost v k, st, n, h0, hA => by
    simp only [exec]
    rw [hW.cost]
    have hf : ∀ r, costWrapper cfg { st with heap := st.heap ++ [v] } st.heap.length (clock st.calls) = r →
        r.2.nCost ≤ st.nCost + 1 := by
      rintro r rfl
      unfold costWrapper
      split
      · simp
      split
      · simp
      split
      · simp
      simp only
      split <;> simp only [apply_ite St.nCost, ite_self] <;> omega
    rcases hc : costWrapper cfg { st with heap := st.heap ++ [v] } st.heap.length (clock st.calls) with ⟨e | b, st1⟩
    · have := hf _ hc
      simp only at this ⊢
      have h1 : (st1.nCost : ℝ) ≤ st.nCost + 1 := by exact_mod_cast this
      linarith [hA.1]
    · have := hf _ hc
      simp only at this ⊢
      have h1 : (st1.nCost : ℝ) ≤ st.nCost + 1 := by exact_mod_cast this
      have h2 := exec_within hW clock (k (φ (deref st1.heap b))) st1 (n - 1) (by linarith [hA.1]) (hA.2 _)
      linarith
  | .jac v k, st, n, h0, hA => by
    simp only [exec]
    cases hJ : W.jac with
    | none => simp [h0]
    | some J =>
      simp only
      rw [hW.jac J hJ]
      have hf : (jacWrapper cfg st v).2.nCost = st.nCost := by
        unfold jacWrapper
        split
        · rfl
        · split
          · rfl
          · simp only
            split <;> split <;> rfl
      rcases hc : jacWrapper cfg st v with ⟨e | b, st1⟩
      · rw [hc] at hf
        simp only at hf ⊢
        rw [hf]; linarith
      · rw [hc] at hf
        simp only at hf ⊢
        have := exec_within hW clock (k (ψ b)) st1 n h0 (hA _)
        rwa [hf] at this

end

theorem timeout_nCost {C : Nat} (o : Opt C) (scalar : Bool) (T : Nat) (st : St o.F C) : (timeout o scalar T st).2.nCost = st.nCost := by
  have hf : ∀ v, (jacWrapper (o.cfg scalar T) st v).2.nCost = st.nCost := fun v => by
    unfold jacWrapper
    split
    · rfl
    · split
      · rfl
      · simp only
        split <;> split <;> rfl
  have hw : (writeState (o.cfg scalar T) st).2.nCost = st.nCost := by
    unfold writeState
    split
    · rfl
    · split
      · rfl
      · next a ha =>
        have := hf (rowMajor (viewPar (o.cfg scalar T) st a))
        have ho : (ownJac (o.cfg scalar T) st (rowMajor (viewPar (o.cfg scalar T) st a))).2.nCost = st.nCost := by
          unfold ownJac scalarJac
          split <;> (split <;> (next h => rw [h] at this; exact this))
        split <;> (next h => rw [h] at ho; exact ho)
  unfold timeout
  split <;> (next h => rw [h] at hw; exact hw)

theorem timeout_noJac {C : Nat} (o : Opt C) (scalar : Bool) (T : Nat) (st : St o.F C) (hj : o.useJac = false) :
    (timeout o scalar T st).2 = st := by
  unfold timeout writeState
  simp [hj]

theorem runScalar_state {C : Nat} (alg : MinArgs → Alg ℝ (List ℝ) MinResult) (o : Opt C) (clock : Nat → ℝ) (y : Pulse ℝ C) :
    let x := exec (scalarWrappers (o.cfg true y.length) (minArgs o y).jac) clock (alg (minArgs o y)) (prepared o.F C)
    (runScalar alg o clock y).2 = x.2 ∨ x.1 = .error .wallTime ∧ (runScalar alg o clock y).2 = (timeout o true y.length x.2).2 := by
  unfold runScalar
  simp only
  rcases exec (scalarWrappers (o.cfg true y.length) (minArgs o y).jac) clock (alg (minArgs o y)) (prepared o.F C) with ⟨(_ | e) | r, st⟩
  · exact .inr ⟨rfl, rfl⟩
  · exact .inl rfl
  · left
    simp only
    split <;> rfl

theorem runLsq_state {C : Nat} (alg : LsqArgs → Alg (List ℝ) (List (List ℝ)) LsqResult) (o : Opt C) (clock : Nat → ℝ) (y : Pulse ℝ C) :
    let x := exec (arrayWrappers (o.cfg false y.length) o.useJac) clock (lsqCall alg o y) (prepared o.F C)
    (runLsq alg o clock y).2 = x.2 ∨ x.1 = .error .wallTime ∧ (runLsq alg o clock y).2 = (timeout o false y.length x.2).2 := by
  unfold runLsq
  simp only
  rcases exec (arrayWrappers (o.cfg false y.length) o.useJac) clock (lsqCall alg o y) (prepared o.F C) with ⟨(_ | e) | r, st⟩
  · exact .inr ⟨rfl, rfl⟩
  · exact .inl rfl
  · left
    simp only
    split <;> rfl

theorem minArgs_noJac {C : Nat} (o : Opt C) (y : Pulse ℝ C) (h : o.useJac = false ∨ o.method ≠ "L-BFGS-B") : (minArgs o y).jac = false := by
  unfold minArgs
  split
  · next hm => simpa [hm] using h
  · split <;> rfl

/-- **C134** With `use_jacobian_function=False` no run of either optimizer evaluates a Jacobian. -/
theorem c134_no_jacobian {C : Nat} (o : Opt C) (hj : o.useJac = false) (clock : Nat → ℝ) (y : Pulse ℝ C) :
    (∀ alg, (runScalar alg o clock y).2.nJac = 0 ∧ (runScalar alg o clock y).2.gradients = []) ∧
    ∀ alg, (runLsq alg o clock y).2.nJac = 0 ∧ (runLsq alg o clock y).2.gradients = [] := by
  constructor
  · intro alg
    have hm := minArgs_noJac o y (.inl hj)
    have h := exec_nJac (passOn_scalar (cfg := o.cfg true y.length) (minArgs o y).jac) (by simp [scalarWrappers, hm]) clock
      (alg (minArgs o y)) (prepared o.F C)
    rcases runScalar_state alg o clock y with e | ⟨-, e⟩
    · rw [e]; exact h
    · rw [e, timeout_noJac _ _ _ _ hj]; exact h
  · intro alg
    have h := exec_nJac (passOn_array (cfg := o.cfg false y.length) o.useJac) (by simp [arrayWrappers, hj]) clock
      (lsqCall alg o y) (prepared o.F C)
    rcases runLsq_state alg o clock y with e | ⟨-, e⟩
    · rw [e]; exact h
    · rw [e, timeout_noJac _ _ _ _ hj]; exact h

example : (runLsq halveSquares (square "trf" (some [[((0 : ℝ) : EReal)], [((3 : ℝ) : EReal)]])) (fun n => 2 * n) [fun _ => 2]).2.nJac = 0 :=
  ((c134_no_jacobian _ rfl _ _).2 _).1

/-- **C134** fails for the Jacobian: with any method other than L-BFGS-B no Jacobian is evaluated in a run which the time limit does not
end, although `use_jacobian_function` is set. -/
theorem c134_violated_jacobian {C : Nat} (o : Opt C) (hm : o.method ≠ "L-BFGS-B") (clock : Nat → ℝ)
    (hc : ∀ n, clock n ≤ o.conditions.maxWallTime) (y : Pulse ℝ C) (alg : MinArgs → Alg ℝ (List ℝ) MinResult) :
    (runScalar alg o clock y).2.nJac = 0 ∧ (runScalar alg o clock y).2.gradients = [] := by
  have hm := minArgs_noJac o y (.inr hm)
  have hW := passOn_scalar (cfg := o.cfg true y.length) (minArgs o y).jac
  have h := exec_nJac hW (by simp [scalarWrappers, hm]) clock (alg (minArgs o y)) (prepared o.F C)
  rcases runScalar_state alg o clock y with e | ⟨e, -⟩
  · rw [e]; exact h
  · exact absurd e (exec_time hW hc _ _)

/-- BFGS with the Jacobian. -/
example : (runScalar halve { square "BFGS" none with useJac := true } (fun _ => 0) [fun _ => 2]).2.nJac = 0 :=
  (c134_violated_jacobian _ (by simp [square]) _ (by simp [square]) _ _).1

/-- **C134** With `use_jacobian_function=True` (partial: `minimize` only with L-BFGS-B, `least_squares` with every method) the algorithm is
told that there is a Jacobian and is given every one it asks for: if it does not return before it has seen `n` of them, then a run which
returns a result evaluated at least `n`.  Missing: the other methods of `minimize` (`c134_violated_jacobian`). -/
theorem c134_jacobian_partial {C : Nat} (o : Opt C) (hj : o.useJac = true) (clock : Nat → ℝ) (hc : ∀ n, clock n ≤ o.conditions.maxWallTime)
    (y : Pulse ℝ C) (n : Nat) (r : Report C) (st : St o.F C) :
    (o.method = "L-BFGS-B" → ∀ alg : MinArgs → Alg ℝ (List ℝ) MinResult, (∀ args, args.jac = true → (alg args).Asks n) →
      runScalar alg o clock y = (.ok r, st) → n ≤ st.nJac) ∧
    ∀ alg : LsqArgs → Alg (List ℝ) (List (List ℝ)) LsqResult, (∀ args, args.jac = true → (alg args).Asks n) →
      runLsq alg o clock y = (.ok r, st) → n ≤ st.nJac := by
  constructor
  · intro hm alg halg h
    have hjac : (minArgs o y).jac = true := by unfold minArgs; rw [if_pos hm]; exact hj
    have hW := passOn_scalar (cfg := o.cfg true y.length) (minArgs o y).jac
    have ht := exec_time hW (clock := clock) hc (alg (minArgs o y)) (prepared o.F C)
    have ha := exec_asks hW clock (alg (minArgs o y)) (prepared o.F C)
    unfold runScalar at h
    simp only at h
    rcases hx : exec (scalarWrappers (o.cfg true y.length) (minArgs o y).jac) clock (alg (minArgs o y)) (prepared o.F C) with ⟨(_ | e) | res, st1⟩
    · rw [hx] at ht; exact absurd rfl ht
    · rw [hx] at h; cases h
    · rw [hx] at h
      have := ha st1 n res (halg _ hjac) hx
      simp only at h
      split at h
      · cases h
      · cases h
        simpa [prepared] using this
  · intro alg halg h
    have hA : (lsqCall alg o y).Asks n := by
      rcases lsqCall_cases alg o y with ⟨e, he⟩ | ⟨args, he, -, h1, -⟩
      · rw [he]; trivial
      · rw [he]; exact halg args (h1.trans hj)
    have hW := passOn_array (cfg := o.cfg false y.length) o.useJac
    have ht := exec_time hW (clock := clock) hc (lsqCall alg o y) (prepared o.F C)
    have ha := exec_asks hW clock (lsqCall alg o y) (prepared o.F C)
    unfold runLsq at h
    simp only at h
    rcases hx : exec (arrayWrappers (o.cfg false y.length) o.useJac) clock (lsqCall alg o y) (prepared o.F C) with ⟨(_ | e) | res, st1⟩
    · rw [hx] at ht; exact absurd rfl ht
    · rw [hx] at h; cases h
    · rw [hx] at h
      have := ha st1 n res hA hx
      simp only at h
      split at h
      · cases h
      · cases h
        simpa [prepared] using this

theorem exec_jac {cfg : Cfg} {V G α : Type} {W : Wrappers cfg V G} (clock : Nat → ℝ) (v : List ℝ) (k : G → Alg V G α)
    (st : St cfg.F cfg.C) {J} (hJ : W.jac = some J) {g : G} {st1 : St cfg.F cfg.C} (h : J st v = (.ok g, st1)) :
    exec W clock (.jac v k) st = exec W clock (k g) st1 := by
  simp only [exec, hJ, h]

/-- One gradient at the initial point, and the result. -/
noncomputable def single (args : MinArgs) : Alg ℝ (List ℝ) MinResult :=
  if args.jac then .jac args.x0 fun g => .cost args.x0 fun c => .ret ⟨args.x0, c, some g, 1, "once", 0⟩
  else .cost args.x0 fun c => .ret ⟨args.x0, c, none, 1, "once", 0⟩

/-- `square` with its gradient. -/
noncomputable def squareGrad : Opt 1 :=
  { square "L-BFGS-B" none with useJac := true, jac := fun _ y => .ok (y.map fun r _ c => 2 * r c) }

/-- L-BFGS-B with the gradient of the square. -/
example : ∃ r st, runScalar single squareGrad (fun _ => 0) [fun _ => 2] = (.ok r, st) ∧ 1 ≤ st.nJac := by
  have hs : ∀ args : MinArgs, args.jac = true → (single args).Asks 1 := by
    intro args h
    simp [single, h, Alg.Asks]
  have hW := passOn_scalar (cfg := squareGrad.cfg true 1) true
  have hu : ∃ r st, runScalar single squareGrad (fun _ => 0) [fun _ => 2] = (.ok r, st) := by
    have hA : minArgs squareGrad [fun _ => 2] = ⟨[2], true, none, "L-BFGS-B", some 0, some 0, some 5⟩ := by
      simp [minArgs, squareGrad, square, square_flatten]
    have hg : ∀ st v, ∃ g st1, (scalarJac (squareGrad.cfg true 1) st [v]) = (.ok g, st1) := by
      intro st v
      unfold scalarJac jacWrapper
      rw [show unflatten (squareGrad.cfg true 1).T (squareGrad.cfg true 1).C [v] = .ok [fun _ => v] from square_unflatten v]
      exact ⟨_, _, rfl⟩
    obtain ⟨g, st1, h1⟩ := hg (prepared 1 1) 2
    obtain ⟨st2, e2, -⟩ := exec_cost hW (fun _ => 0) [2] (fun c => .ret (⟨[2], c, some g, 1, "once", 0⟩ : MinResult)) st1 (c := [4]) (c' := [4])
      (by simp [squareGrad, square]) (square_unflatten 2) (by simp [squareGrad, square]; norm_num) rfl
    have hj : exec (scalarWrappers (squareGrad.cfg true 1) true) (fun _ => 0)
        (single ⟨[2], true, none, "L-BFGS-B", some 0, some 0, some 5⟩) (prepared 1 1) =
        exec (scalarWrappers (squareGrad.cfg true 1) true) (fun _ => 0)
          (.cost [2] fun c => .ret (⟨[2], c, some g, 1, "once", 0⟩ : MinResult)) st1 := by
      simp only [single, if_true]
      exact exec_jac _ _ _ _ (by simp [scalarWrappers]) h1
    rw [e2] at hj
    have hm : minReport squareGrad 1 ⟨[2], [4].sum, some g, 1, "once", 0⟩ = .ok ⟨some (.number [4].sum), some ["square"], some [fun _ => 2],
        some (norm g), none, some 1, "once", some 0, false⟩ := by
      unfold minReport
      simp only [square_unflatten, bind, Except.bind]
      rfl
    have hx := hj.trans (by rw [exec])
    exact ⟨_, st2, runScalar_of (by rw [hA]; exact hx) hm⟩
  obtain ⟨r, st, h⟩ := hu
  exact ⟨r, st, h, (c134_jacobian_partial squareGrad rfl _ (by simp [squareGrad, square]) _ 1 r st).1 rfl single hs h⟩

/-- **C134** The number of iterations (partial): with L-BFGS-B and Nelder-Mead, an algorithm which keeps to its option `maxiter` with at
most `a + b * maxiter` evaluations of the costs makes no more than that for `max_iterations`.  Missing: the other methods
(`c134_violated_conditions`). -/
theorem c134_iterations_partial {C : Nat} (o : Opt C) (hm : o.method = "L-BFGS-B" ∨ o.method = "Nelder-Mead") (clock : Nat → ℝ)
    (y : Pulse ℝ C) (alg : MinArgs → Alg ℝ (List ℝ) MinResult) (a b : ℝ)
    (halg : ∀ args n, args.maxiter = some n → (alg args).Within (a + b * n)) (h0 : 0 ≤ a + b * o.conditions.maxIterations) :
    ((runScalar alg o clock y).2.nCost : ℝ) ≤ a + b * o.conditions.maxIterations := by
  have hi : (minArgs o y).maxiter = some o.conditions.maxIterations := by
    unfold minArgs
    split
    · rfl
    · split
      · rfl
      · next h1 h2 => rcases hm with h | h <;> contradiction
  have h := exec_within (passOn_scalar (cfg := o.cfg true y.length) (minArgs o y).jac) clock (alg (minArgs o y)) (prepared o.F C) _ h0
    (halg _ _ hi)
  rw [show ((prepared o.F C).nCost : ℝ) = 0 by simp [prepared], zero_add] at h
  rcases runScalar_state alg o clock y with e | ⟨-, e⟩
  · rw [e]; exact h
  · rw [e, timeout_nCost]; exact h

/-- The algorithm of the examples makes two evaluations: `2 + 0 * maxiter`. -/
example : ((runScalar halve (square "Nelder-Mead" none) (fun _ => 0) [fun _ => 2]).2.nCost : ℝ) ≤ 2 + 0 * 5 :=
  c134_iterations_partial (square "Nelder-Mead" none) (.inr rfl) _ _ halve 2 0 (fun args n _ => by
    refine ⟨by norm_num, fun a => ⟨by norm_num, fun b => ?_⟩⟩
    dsimp only
    split <;> trivial) (by norm_num)

/-- **C134** For the `LeastSquaresOptimizer` `max_iterations` is a bound for the number of evaluations of the costs, for an algorithm
which keeps to `max_nfev` (scipy does not count the evaluations for numerical derivatives). -/
theorem c134_evaluations {C : Nat} (o : Opt C) (hj : o.useJac = true) (clock : Nat → ℝ) (y : Pulse ℝ C)
    (alg : LsqArgs → Alg (List ℝ) (List (List ℝ)) LsqResult) (halg : ∀ args, args.jac = true → (alg args).Within args.maxNfev)
    (h0 : 0 ≤ o.conditions.maxIterations) : ((runLsq alg o clock y).2.nCost : ℝ) ≤ o.conditions.maxIterations := by
  have hA : (lsqCall alg o y).Within o.conditions.maxIterations := by
    rcases lsqCall_cases alg o y with ⟨e, he⟩ | ⟨args, he, -, h1, -, -, -, -, -, -, -, h2⟩
    · rw [he]; trivial
    · rw [he, ← h2]
      exact halg args (h1.trans hj)
  have h := exec_within (passOn_array (cfg := o.cfg false y.length) o.useJac) clock _ (prepared o.F C) _ h0 hA
  rw [show ((prepared o.F C).nCost : ℝ) = 0 by simp [prepared], zero_add] at h
  rcases runLsq_state alg o clock y with e | ⟨-, e⟩
  · rw [e]; exact h
  · rw [e, timeout_nCost]; exact h

/-- An algorithm which stops after the first of its two evaluations if it must. -/
example : ((runLsq (fun args => if 2 ≤ args.maxNfev then halveSquares args else .fail .valueError)
    { square "trf" (some [[((0 : ℝ) : EReal)], [((3 : ℝ) : EReal)]]) with useJac := true } (fun _ => 0) [fun _ => 2]).2.nCost : ℝ) ≤ 5 :=
  c134_evaluations { square "trf" (some [[((0 : ℝ) : EReal)], [((3 : ℝ) : EReal)]]) with useJac := true } rfl _ _ _ (fun args _ => by
    split
    · next h =>
      refine ⟨by linarith, fun a => ⟨by linarith, fun b => ?_⟩⟩
      dsimp only
      split <;> trivial
    · trivial) (by simp [square])

theorem timeout_congr {C : Nat} (o : Opt C) (c : Conditions) (hc : c.maxWallTime = o.conditions.maxWallTime) (scalar : Bool) (T : Nat)
    (st : St o.F C) : timeout o scalar T st = timeout { o with conditions := c } scalar T st := by
  obtain ⟨F, c', w, s, j, k, m, b, i, f, g⟩ := o
  obtain ⟨a1, a2, a3, a4, a5, a6⟩ := c
  obtain ⟨b1, b2, b3, b4, b5, b6⟩ := c'
  simp only at hc
  subst hc
  unfold timeout
  simp only [Opt.cfg]
  rcases writeState ⟨T, C, F, w, s, j, scalar, a3, f, g⟩ st with ⟨_ | _, _⟩ <;> rfl

theorem run_congr {C : Nat} (alg : MinArgs → Alg ℝ (List ℝ) MinResult) (o : Opt C) (c : Conditions)
    (hc : c.maxWallTime = o.conditions.maxWallTime) (clock : Nat → ℝ) (y : Pulse ℝ C)
    (ha : minArgs o y = minArgs { o with conditions := c } y)
    (hr : minReport o y.length = minReport { o with conditions := c } y.length) :
    runScalar alg o clock y = runScalar alg { o with conditions := c } clock y := by
  have ht := timeout_congr o c hc true y.length
  obtain ⟨F, c', w, s, j, k, m, b, i, f, g⟩ := o
  obtain ⟨a1, a2, a3, a4, a5, a6⟩ := c
  obtain ⟨b1, b2, b3, b4, b5, b6⟩ := c'
  simp only at hc
  subst hc
  unfold runScalar
  simp only [Opt.cfg]
  rw [ha, hr]
  simp only [ht]

theorem lsq_congr {C : Nat} (alg : LsqArgs → Alg (List ℝ) (List (List ℝ)) LsqResult) (o : Opt C) (c : Conditions)
    (hc : c.maxWallTime = o.conditions.maxWallTime) (clock : Nat → ℝ) (y : Pulse ℝ C)
    (ha : lsqCall alg o y = lsqCall alg { o with conditions := c } y) :
    runLsq alg o clock y = runLsq alg { o with conditions := c } clock y := by
  have ht := timeout_congr o c hc false y.length
  obtain ⟨F, c', w, s, j, k, m, b, i, f, g⟩ := o
  obtain ⟨a1, a2, a3, a4, a5, a6⟩ := c
  obtain ⟨b1, b2, b3, b4, b5, b6⟩ := c'
  simp only at hc
  subst hc
  unfold runLsq
  simp only [Opt.cfg]
  rw [ha]
  simp only [ht]

/-- **C134** fails for the termination conditions: with any method other than L-BFGS-B and Nelder-Mead, a run is the same whatever the
termination conditions other than the time limit are. -/
theorem c134_violated_conditions {C : Nat} (o : Opt C) (hm : o.method ≠ "L-BFGS-B" ∧ o.method ≠ "Nelder-Mead") (c : Conditions)
    (hc : c.maxWallTime = o.conditions.maxWallTime) (clock : Nat → ℝ) (y : Pulse ℝ C) (alg : MinArgs → Alg ℝ (List ℝ) MinResult) :
    runScalar alg { o with conditions := c } clock y = runScalar alg o clock y := by
  obtain ⟨F, c', w, s, j, k, m, b, i, f, g⟩ := o
  have ha : minArgs ⟨F, c, w, s, j, k, m, b, i, f, g⟩ y = minArgs ⟨F, c', w, s, j, k, m, b, i, f, g⟩ y := by
    simp [minArgs, hm.1, hm.2]
  have hr : minReport ⟨F, c, w, s, j, k, m, b, i, f, g⟩ y.length = minReport ⟨F, c', w, s, j, k, m, b, i, f, g⟩ y.length := by
    funext r
    simp [minReport, hm.1, hm.2]
  exact run_congr alg ⟨F, c, w, s, j, k, m, b, i, f, g⟩ c' hc.symm clock y ha hr

example : ∃ r st, runScalar halve { square "BFGS" none with conditions := ⟨0, 0, 1, 0, 0, 0⟩ } (fun _ => 0) [fun _ => 2] = (.ok r, st) := by
  have h := c134_violated_conditions (square "BFGS" none) (by simp [square]) ⟨0, 0, 1, 0, 0, 0⟩ rfl (fun _ => 0) [fun _ => 2] halve
  obtain ⟨r, st, e⟩ := halve_run "BFGS" none (fun _ => 0) (by simp)
  exact ⟨r, st, h.trans e⟩

/-- **C134** fails for `max_cost_func_calls` with every method of both optimizers: it has no effect. -/
theorem c134_violated_calls {C : Nat} (o : Opt C) (q : ℝ) (clock : Nat → ℝ) (y : Pulse ℝ C) :
    (∀ alg, runScalar alg { o with conditions := { o.conditions with maxCostFuncCalls := q } } clock y = runScalar alg o clock y) ∧
    ∀ alg, runLsq alg { o with conditions := { o.conditions with maxCostFuncCalls := q } } clock y = runLsq alg o clock y :=
  ⟨fun alg => run_congr alg { o with conditions := { o.conditions with maxCostFuncCalls := q } } o.conditions rfl clock y rfl rfl,
    fun alg => lsq_congr alg { o with conditions := { o.conditions with maxCostFuncCalls := q } } o.conditions rfl clock y rfl⟩

/-- Two evaluations, although none is allowed. -/
example : (square "BFGS" none).conditions.maxCostFuncCalls = 0 ∧
    ∃ r st, runScalar halve (square "BFGS" none) (fun _ => 0) [fun _ => 2] = (.ok r, st) ∧ r.numIter = some 2 := by
  obtain ⟨st, e⟩ := halve_exec "BFGS" none (minArgs (square "BFGS" none) [fun _ => 2]) (by rw [minArgs_x0, square_flatten]) (fun _ => 0)
    (by simp) (minArgs (square "BFGS" none) [fun _ => 2]).jac
  have hr : minReport (square "BFGS" none) 1 ⟨[1], 1, some [], 2, "half", 0⟩ = .ok ⟨some (.number 1), some ["square"], some [fun _ => 1],
      none, none, some 2, "half", some 0, true⟩ := by
    unfold minReport
    simp only [square_unflatten, bind, Except.bind]
    rw [if_neg (by simp [square]), if_neg (by simp [square])]
    rfl
  exact ⟨rfl, _, st, runScalar_of e hr, rfl⟩

/-- **C134** fails for `store_optimizer`: with any method other than L-BFGS-B and Nelder-Mead the optimizer is stored in the result of a
run which the time limit does not end, also if it is not to be. -/
theorem c134_violated_store {C : Nat} (o : Opt C) (hm : o.method ≠ "L-BFGS-B" ∧ o.method ≠ "Nelder-Mead") (clock : Nat → ℝ)
    (hc : ∀ n, clock n ≤ o.conditions.maxWallTime) (y : Pulse ℝ C) (alg : MinArgs → Alg ℝ (List ℝ) MinResult) (r : Report C)
    (st : St o.F C) (h : runScalar alg o clock y = (.ok r, st)) : r.optimizer = true := by
  have ht := exec_time (passOn_scalar (cfg := o.cfg true y.length) (minArgs o y).jac) (clock := clock) hc (alg (minArgs o y)) (prepared o.F C)
  unfold runScalar at h
  simp only at h
  rcases hx : exec (scalarWrappers (o.cfg true y.length) (minArgs o y).jac) clock (alg (minArgs o y)) (prepared o.F C) with ⟨(_ | e) | res, st1⟩
  · rw [hx] at ht; exact absurd rfl ht
  · rw [hx] at h; cases h
  · rw [hx] at h
    simp only at h
    split at h
    · cases h
    · next hr =>
      cases h
      unfold minReport at hr
      cases hu : unflatten y.length C res.x with
      | error e => rw [hu] at hr; cases hr
      | ok x =>
        rw [hu] at hr
        simp only [bind, Except.bind, hm.1, hm.2, if_false] at hr
        cases hr; rfl

example : ∃ r st, (square "BFGS" none).store = false ∧
    runScalar halve (square "BFGS" none) (fun _ => 0) [fun _ => 2] = (.ok r, st) ∧ r.optimizer = true := by
  obtain ⟨r, st, h⟩ := halve_run "BFGS" none (fun _ => 0) (by simp)
  exact ⟨r, st, rfl, h, c134_violated_store (square "BFGS" none) (by simp [square]) _ (by simp [square]) _ _ r st h⟩

/-- **C134** `store_optimizer` decides for the `LeastSquaresOptimizer`, for L-BFGS-B and for Nelder-Mead. -/
theorem c134_store_partial {C : Nat} (o : Opt C) (clock : Nat → ℝ) (y : Pulse ℝ C) (r : Report C) (st : St o.F C)
    (h : (∃ alg, runLsq alg o clock y = (.ok r, st)) ∨
      (o.method = "L-BFGS-B" ∨ o.method = "Nelder-Mead") ∧ ∃ alg, runScalar alg o clock y = (.ok r, st)) : r.optimizer = o.store := by
  have ht : ∀ scalar st0, timeout o scalar y.length st0 = (.ok r, st) → r.optimizer = o.store := fun scalar st0 h => by
    unfold timeout at h
    split at h
    · cases h
    · cases h; rfl
  rcases h with ⟨alg, h⟩ | ⟨hm, alg, h⟩
  · unfold runLsq at h
    simp only at h
    split at h
    · exact ht _ _ h
    · cases h
    · split at h
      · cases h
      · cases h; rfl
  · unfold runScalar at h
    simp only at h
    split at h
    · exact ht _ _ h
    · cases h
    · next res _ _ =>
      split at h
      · cases h
      · next hr =>
        cases h
        unfold minReport at hr
        cases hu : unflatten y.length C res.x with
        | error e => rw [hu] at hr; cases hr
        | ok x =>
          rw [hu] at hr
          simp only [bind, Except.bind] at hr
          split at hr
          · split at hr
            · cases hr
            · cases hr; rfl
          · rw [if_pos (by tauto)] at hr
            cases hr; rfl

example : ∃ r st, runScalar halve (square "L-BFGS-B" none) (fun _ => 0) [fun _ => 2] = (.ok r, st) ∧ r.optimizer = false := by
  obtain ⟨r, st, h⟩ := halve_run "L-BFGS-B" none (fun _ => 0) (by simp)
  exact ⟨r, st, h, c134_store_partial _ _ _ r st (.inr ⟨.inl rfl, _, h⟩)⟩

theorem exec_late {W : Wrappers cfg V G} {φ : List ℝ → V} {ψ : List (List ℝ) → G} (hW : PassOn W φ ψ) (clock : Nat → ℝ) (K : Nat)
    (hK : ∀ n, K ≤ n → cfg.maxWall < clock n) : ∀ (A : Alg V G α) (st : St cfg.F cfg.C), st.nCost ≤ st.calls ∧ st.nCost ≤ K →
      (exec W clock A st).2.nCost ≤ K
  | .ret _, st, h => by simp [exec, h]
  | .fail _, st, h => by simp [exec, h]
  | .cost v k, st, h => by
    simp only [exec]
    rw [hW.cost]
    have hf : ∀ r, costWrapper cfg { st with heap := st.heap ++ [v] } st.heap.length (clock st.calls) = r →
        r.2.nCost ≤ r.2.calls ∧ r.2.nCost ≤ K := by
      rintro r rfl
      unfold costWrapper
      split
      · exact h
      next hlt =>
      have hk : st.calls < K := by
        by_contra hk
        exact hlt (hK _ (by omega))
      split
      · exact h
      split
      · exact ⟨by simp only; omega, h.2⟩
      simp only
      split <;> simp only [apply_ite St.nCost, apply_ite St.calls, ite_self] <;> omega
    rcases hc : costWrapper cfg { st with heap := st.heap ++ [v] } st.heap.length (clock st.calls) with ⟨e | b, st1⟩
    · exact (hf _ hc).2
    · exact exec_late hW clock K hK (k (φ (deref st1.heap b))) st1 (hf _ hc)
  | .jac v k, st, h => by
    simp only [exec]
    cases hJ : W.jac with
    | none => exact h.2
    | some J =>
      simp only
      rw [hW.jac J hJ]
      have hf : (jacWrapper cfg st v).2.nCost = st.nCost ∧ st.calls ≤ (jacWrapper cfg st v).2.calls := by
        unfold jacWrapper
        split
        · exact ⟨rfl, le_rfl⟩
        · split
          · exact ⟨rfl, by simp⟩
          · simp only
            split <;> split <;> exact ⟨rfl, by simp⟩
      rcases hc : jacWrapper cfg st v with ⟨e | b, st1⟩
      · rw [hc] at hf
        exact hf.1.trans_le h.2
      · rw [hc] at hf
        simp only at hf
        exact exec_late hW clock K hK (k (ψ b)) st1 ⟨by omega, by omega⟩

/-- **C134** The time limit holds for both optimizers and all methods: if it has passed after `K` calls of the simulator, no algorithm
gets more than `K` values of the costs. -/
theorem c134_wall_time {C : Nat} (o : Opt C) (clock : Nat → ℝ) (K : Nat) (hK : ∀ n, K ≤ n → o.conditions.maxWallTime < clock n)
    (y : Pulse ℝ C) : (∀ alg, (runScalar alg o clock y).2.nCost ≤ K) ∧ ∀ alg, (runLsq alg o clock y).2.nCost ≤ K := by
  constructor
  · intro alg
    have h := exec_late (passOn_scalar (cfg := o.cfg true y.length) (minArgs o y).jac) clock K hK (alg (minArgs o y)) (prepared o.F C)
      ⟨by simp [prepared], by simp [prepared]⟩
    rcases runScalar_state alg o clock y with e | ⟨-, e⟩
    · rw [e]; exact h
    · rw [e, timeout_nCost]; exact h
  · intro alg
    have h := exec_late (passOn_array (cfg := o.cfg false y.length) o.useJac) clock K hK (lsqCall alg o y) (prepared o.F C)
      ⟨by simp [prepared], by simp [prepared]⟩
    rcases runLsq_state alg o clock y with e | ⟨-, e⟩
    · rw [e]; exact h
    · rw [e, timeout_nCost]; exact h

example : (runScalar halve (square "BFGS" none) (fun n => 2 * n) [fun _ => 2]).2.nCost ≤ 1 :=
  (c134_wall_time (square "BFGS" none) _ 1 (fun n hn => by
    have : (1 : ℝ) ≤ n := by exact_mod_cast hn
    simp only [square]
    linarith) _).1 _

/-! ## C135 -/

theorem events_stays (W : Wrappers cfg V G) (clock : Nat → ℝ) (P : List ℝ → Prop) : ∀ (A : Alg V G α) (st : St cfg.F cfg.C),
    A.Stays P → ∀ v t, Event.cost v t ∈ events W clock A st → P v
  | .ret _, _, _ => by simp [events]
  | .fail _, _, _ => by simp [events]
  | .cost v k, st, hA => by
    intro u t he
    simp only [events, List.mem_cons] at he
    rcases he with he | he
    · cases he
      exact hA.1
    · split at he
      · simp at he
      · exact events_stays W clock P _ _ (hA.2 _) u t he
  | .jac v k, st, hA => by
    intro u t he
    simp only [events] at he
    split at he
    · simp at he
    · simp only [List.mem_cons] at he
      rcases he with he | he
      · cases he
      · split at he
        · simp at he
        · exact events_stays W clock P _ _ (hA.2 _) u t he

theorem evaluations_mem (cfg : Cfg) : ∀ (es : List Event) (n : Nat) (e : Pulse ℝ cfg.C × List ℝ), e ∈ evaluations cfg n es →
    ∃ v t, Event.cost v t ∈ es ∧ unflatten cfg.T cfg.C v = .ok e.1
  | [], _, _ => by simp [evaluations]
  | .cost v t :: es, n, e => by
    intro he
    simp only [evaluations] at he
    split at he
    · simp at he
    split at he
    · simp at he
    next y hy =>
    split at he
    · simp at he
    · rcases List.mem_cons.1 he with rfl | he
      · exact ⟨v, t, by simp, hy⟩
      · split at he
        · simp at he
        · obtain ⟨u, s, h1, h2⟩ := evaluations_mem cfg es _ e he
          exact ⟨u, s, List.mem_cons_of_mem _ h1, h2⟩
  | .jac v :: es, n, e => by
    intro he
    simp only [evaluations] at he
    have key : ∀ m, e ∈ evaluations cfg m es → ∃ v' t, Event.cost v' t ∈ Event.jac v :: es ∧ unflatten cfg.T cfg.C v' = .ok e.1 :=
      fun m he => by
        obtain ⟨u, s, h1, h2⟩ := evaluations_mem cfg es m e he
        exact ⟨u, s, List.mem_cons_of_mem _ h1, h2⟩
    repeat' split at he
    all_goals first | exact key _ he | simp at he
  | .write a b :: es, n, e => by
    intro he
    simp only [evaluations] at he
    obtain ⟨u, s, h1, h2⟩ := evaluations_mem cfg es _ e he
    exact ⟨u, s, List.mem_cons_of_mem _ h1, h2⟩

theorem timeout_pars {C : Nat} (o : Opt C) (scalar : Bool) (T : Nat) (st : St o.F C) :
    recordedPars (o.cfg scalar T) (timeout o scalar T st).2 = recordedPars (o.cfg scalar T) st := by
  have hf : ∀ v, (jacWrapper (o.cfg scalar T) st v).2.heap = st.heap ∧ (jacWrapper (o.cfg scalar T) st v).2.pars = st.pars := fun v =>
    ⟨(jacWrapper_frame (o.cfg scalar T) st v).1, (jacWrapper_frame (o.cfg scalar T) st v).2.2.1⟩
  have hw : (writeState (o.cfg scalar T) st).2.heap = st.heap ∧ (writeState (o.cfg scalar T) st).2.pars = st.pars := by
    unfold writeState
    split
    · exact ⟨rfl, rfl⟩
    · split
      · exact ⟨rfl, rfl⟩
      · next a ha =>
        have := hf (rowMajor (viewPar (o.cfg scalar T) st a))
        have ho : (ownJac (o.cfg scalar T) st (rowMajor (viewPar (o.cfg scalar T) st a))).2.heap = st.heap ∧
            (ownJac (o.cfg scalar T) st (rowMajor (viewPar (o.cfg scalar T) st a))).2.pars = st.pars := by
          unfold ownJac scalarJac
          split <;> (split <;> (next h => rw [h] at this; exact this))
        split <;> (next h => rw [h] at ho; exact ho)
  have ht : (timeout o scalar T st).2.heap = st.heap ∧ (timeout o scalar T st).2.pars = st.pars := by
    unfold timeout
    split <;> (next h => rw [h] at hw; exact hw)
  unfold recordedPars
  rw [ht.2]
  refine List.map_congr_left fun a _ => ?_
  unfold viewPar
  rw [ht.1]

theorem recorded_stays {cfg : Cfg} {W : Wrappers cfg V G} {φ : List ℝ → V} {ψ : List (List ℝ) → G} (hW : PassOn W φ ψ)
    (clock : Nat → ℝ) (P : List ℝ → Prop) (A : Alg V G α) (hA : A.Stays P) (hs : cfg.save = true) {x : Pulse ℝ cfg.C}
    (hx : x ∈ recordedPars cfg (exec W clock A (prepared cfg.F cfg.C)).2) : ∃ v, unflatten cfg.T cfg.C v = .ok x ∧ P v := by
  rw [(exec_run hW clock A _).1] at hx
  have h := run_inv cfg (events W clock A (prepared cfg.F cfg.C)) _ [] (prepared_inv cfg) (events_noWrite W clock A _)
  simp only [List.nil_append] at h
  rw [pars_of_inv h hs] at hx
  obtain ⟨e, he, rfl⟩ := List.mem_map.1 hx
  obtain ⟨v, t, h1, h2⟩ := evaluations_mem cfg _ _ e he
  exact ⟨v, h2, events_stays W clock P A _ hA v t h1⟩

/-- **C135** The bounds of the `LeastSquaresOptimizer`: arrays of bounds which are flattened like the pulse, the lower bounds first, hold
entry by entry for every pulse that is simulated in a run, for an algorithm which asks only at points within its bounds. -/
theorem c135_least_squares_partial {C : Nat} (o : Opt C) (hs : o.save = true) (y : Pulse ℝ C) (lo hi : Pulse EReal C)
    (h1 : lo.length = y.length) (h2 : hi.length = y.length) (hb : o.bounds = some [flattenT lo, flattenT hi]) (clock : Nat → ℝ)
    (alg : LsqArgs → Alg (List ℝ) (List (List ℝ)) LsqResult)
    (halg : ∀ args, (alg args).Stays fun v => ∀ i, i < v.length → args.lower.getD i ⊥ ≤ ((v.getD i 0 : ℝ) : EReal) ∧
      ((v.getD i 0 : ℝ) : EReal) ≤ args.upper.getD i ⊤)
    (x : Pulse ℝ C) (hx : x ∈ recordedPars (o.cfg false y.length) (runLsq alg o clock y).2) (t : Nat) (ht : t < y.length)
    (htx : t < x.length) (c : Fin C) : (lo[t] c) ≤ ((x[t] c : ℝ) : EReal) ∧ ((x[t] c : ℝ) : EReal) ≤ hi[t] c := by
  have hA : (lsqCall alg o y).Stays fun v => ∀ i, i < v.length → (flattenT lo).getD i ⊥ ≤ ((v.getD i 0 : ℝ) : EReal) ∧
      ((v.getD i 0 : ℝ) : EReal) ≤ (flattenT hi).getD i ⊤ := by
    rcases lsqCall_cases alg o y with ⟨e, he⟩ | ⟨args, he, -, -, h3, -⟩
    · rw [he]; trivial
    · rw [hb] at h3
      simp only [Option.some.injEq, List.cons.injEq, and_true] at h3
      rw [he, h3.1, h3.2]
      exact halg args
  have hx' : x ∈ recordedPars (o.cfg false y.length) (exec (arrayWrappers (o.cfg false y.length) o.useJac) clock (lsqCall alg o y)
      (prepared o.F C)).2 := by
    rcases runLsq_state alg o clock y with e | ⟨-, e⟩
    · rw [← e]; exact hx
    · rw [e, timeout_pars] at hx; exact hx
  obtain ⟨v, hv, hP⟩ := recorded_stays (passOn_array (cfg := o.cfg false y.length) o.useJac) clock _ _ hA hs hx'
  obtain ⟨e1, e2, e3⟩ := unflatten_ok hv
  have hk : c * y.length + t < v.length := by rw [e1]; exact index_lt c.2 ht
  have := hP _ hk
  rw [← e3 t htx c, flattenT_getD lo ⊥ _ h1 c t (by omega), flattenT_getD hi ⊤ _ h2 c t (by omega)] at this
  exact this

open Classical in
/-- An algorithm which only looks at the initial point, if it is within the bounds. -/
example : ∃ alg : LsqArgs → Alg (List ℝ) (List (List ℝ)) LsqResult, ∃ x,
    x ∈ recordedPars ((square "trf" (some [[((0 : ℝ) : EReal)], [((3 : ℝ) : EReal)]])).cfg false 1) (runLsq alg (square "trf" (some [[((0 : ℝ) : EReal)], [((3 : ℝ) : EReal)]])) (fun _ => 0) [fun _ => 2]).2 ∧
    ∃ h : 0 < x.length, ((0 : ℝ) : EReal) ≤ ((x[0] 0 : ℝ) : EReal) ∧ ((x[0] 0 : ℝ) : EReal) ≤ ((3 : ℝ) : EReal) := by
  let ok (args : LsqArgs) (v : List ℝ) : Prop := ∀ i, i < v.length → args.lower.getD i ⊥ ≤ ((v.getD i 0 : ℝ) : EReal) ∧
      ((v.getD i 0 : ℝ) : EReal) ≤ args.upper.getD i ⊤
  let alg : LsqArgs → Alg (List ℝ) (List (List ℝ)) LsqResult := fun args =>
    if ok args args.x0 then .cost args.x0 fun a => .ret ⟨args.x0, a, [], 1, "", 0⟩ else .fail .valueError
  have hst : ∀ args, (alg args).Stays (ok args) := fun args => by
    simp only [alg]
    split
    · next h => exact ⟨h, fun _ => trivial⟩
    · trivial
  have hh : LsqHonest alg := fun args f g r pts h => by
    simp only [alg] at h
    split at h
    · simp only [Alg.answer] at h
      cases ha : f args.x0 with
      | error e => simp [ha] at h
      | ok a =>
        simp only [ha, Except.ok.injEq, Prod.mk.injEq] at h
        obtain ⟨rfl, rfl⟩ := h
        exact ⟨by simp, ha⟩
    · cases h
  have hok : ok ⟨[2], false, [((0 : ℝ) : EReal)], [((3 : ℝ) : EReal)], "trf", 0, 0, 0, 5⟩ [2] := fun i hi => by
    have : i = 0 := by simpa using hi
    subst this
    exact ⟨EReal.coe_le_coe_iff.2 (by norm_num), EReal.coe_le_coe_iff.2 (by norm_num)⟩
  obtain ⟨st1, e1, -⟩ := exec_cost (passOn_array (cfg := (square "trf" (some [[((0 : ℝ) : EReal)], [((3 : ℝ) : EReal)]])).cfg false 1) false) (fun _ => 0) [2]
    (fun a => .ret (⟨[2], a, [], 1, "", 0⟩ : LsqResult)) (prepared 1 1) (c := [4]) (c' := [4]) (by simp [square]) (square_unflatten 2)
    (by simp [square]; norm_num) rfl
  have hcall : lsqCall alg (square "trf" (some [[((0 : ℝ) : EReal)], [((3 : ℝ) : EReal)]])) [fun _ => 2] = .cost [2] fun a => .ret ⟨[2], a, [], 1, "", 0⟩ := by
    rw [square_call]
    exact if_pos hok
  obtain ⟨R, hR⟩ := runLsq_of (o := square "trf" (some [[((0 : ℝ) : EReal)], [((3 : ℝ) : EReal)]])) (y := [fun _ => 2]) (alg := alg) (clock := fun _ => 0) (hcall ▸ e1) (square_unflatten 2)
  obtain ⟨x, c, -, hl, -, -, -, hx, -⟩ := c133_least_squares alg hh _ _ _ (fun y => .ok [(y.headD 0 0) ^ 2]) (fun _ => .error .valueError)
    (fun _ _ => rfl) (fun _ _ => rfl) (by simp [square]) R st1 hR
  have hx := hx rfl
  rw [show st1 = (runLsq alg (square "trf" (some [[((0 : ℝ) : EReal)], [((3 : ℝ) : EReal)]])) (fun _ => 0) [fun _ => 2]).2 by rw [hR]] at hx
  have h0 : 0 < x.length := by rw [hl]; simp
  exact ⟨alg, x, hx, h0, c135_least_squares_partial (square "trf" (some [[((0 : ℝ) : EReal)], [((3 : ℝ) : EReal)]])) rfl [fun _ => 2] [fun _ => ((0 : ℝ) : EReal)]
    [fun _ => ((3 : ℝ) : EReal)] rfl rfl (by simp [square, flattenT, List.finRange_succ]) _ alg hst x hx 0 (by simp) h0 0⟩

/-- **C135** The bounds of the `ScalarMinimizingOptimizer`: a pair for each parameter, flattened like the pulse, holds entry by entry for
every pulse that is simulated in a run, for an algorithm which asks only at points within its bounds. -/
theorem c135_scalar {C : Nat} (o : Opt C) (hs : o.save = true) (y : Pulse ℝ C) (lo hi : Pulse EReal C)
    (h1 : lo.length = y.length) (h2 : hi.length = y.length)
    (hb : o.bounds = some (List.zipWith (fun a b => [a, b]) (flattenT lo) (flattenT hi))) (clock : Nat → ℝ)
    (alg : MinArgs → Alg ℝ (List ℝ) MinResult)
    (halg : ∀ args, (alg args).Stays fun v => ∀ pairs, args.bounds = some pairs → ∀ i a b, pairs[i]? = some [a, b] →
      a ≤ ((v.getD i 0 : ℝ) : EReal) ∧ ((v.getD i 0 : ℝ) : EReal) ≤ b)
    (x : Pulse ℝ C) (hx : x ∈ recordedPars (o.cfg true y.length) (runScalar alg o clock y).2) (t : Nat) (ht : t < y.length)
    (htx : t < x.length) (c : Fin C) : (lo[t] c) ≤ ((x[t] c : ℝ) : EReal) ∧ ((x[t] c : ℝ) : EReal) ≤ hi[t] c := by
  have hA := halg (minArgs o y)
  have hmb : (minArgs o y).bounds = o.bounds := by
    unfold minArgs
    split
    · rfl
    · split <;> rfl
  have hx' : x ∈ recordedPars (o.cfg true y.length) (exec (scalarWrappers (o.cfg true y.length) (minArgs o y).jac) clock
      (alg (minArgs o y)) (prepared o.F C)).2 := by
    rcases runScalar_state alg o clock y with e | ⟨-, e⟩
    · rw [← e]; exact hx
    · rw [e, timeout_pars] at hx; exact hx
  obtain ⟨v, hv, hP⟩ := recorded_stays (passOn_scalar (cfg := o.cfg true y.length) (minArgs o y).jac) clock _ _ hA hs hx'
  obtain ⟨e1, e2, e3⟩ := unflatten_ok hv
  have hk : c * y.length + t < C * y.length := index_lt c.2 ht
  have g1 : (flattenT lo)[c * y.length + t]? = some (lo[t] c) := by
    have := flattenT_getD lo ⊥ _ h1 c t (by omega)
    rw [List.getD_eq_getElem?_getD] at this
    rw [List.getElem?_eq_getElem (by rw [flattenT_length, h1]; exact hk)] at this ⊢
    simpa using this
  have g2 : (flattenT hi)[c * y.length + t]? = some (hi[t] c) := by
    have := flattenT_getD hi ⊥ _ h2 c t (by omega)
    rw [List.getD_eq_getElem?_getD] at this
    rw [List.getElem?_eq_getElem (by rw [flattenT_length, h2]; exact hk)] at this ⊢
    simpa using this
  have := hP _ (hmb.trans hb) (c * y.length + t) (lo[t] c) (hi[t] c) (by simp [List.getElem?_zipWith, g1, g2])
  rw [← e3 t htx c] at this
  exact this

open Classical in
/-- With L-BFGS-B, and the pair 0 and 3 for the only parameter. -/
example : ∃ alg : MinArgs → Alg ℝ (List ℝ) MinResult, ∃ x,
    x ∈ recordedPars ((square "L-BFGS-B" (some [[((0 : ℝ) : EReal), ((3 : ℝ) : EReal)]])).cfg true 1) (runScalar alg (square "L-BFGS-B" (some [[((0 : ℝ) : EReal), ((3 : ℝ) : EReal)]])) (fun _ => 0) [fun _ => 2]).2 ∧
    ∃ h : 0 < x.length, ((0 : ℝ) : EReal) ≤ ((x[0] 0 : ℝ) : EReal) ∧ ((x[0] 0 : ℝ) : EReal) ≤ ((3 : ℝ) : EReal) := by
  let ok (args : MinArgs) (v : List ℝ) : Prop := ∀ pairs, args.bounds = some pairs → ∀ i a b, pairs[i]? = some [a, b] →
      a ≤ ((v.getD i 0 : ℝ) : EReal) ∧ ((v.getD i 0 : ℝ) : EReal) ≤ b
  let alg : MinArgs → Alg ℝ (List ℝ) MinResult := fun args =>
    if ok args args.x0 then .cost args.x0 fun a => .ret ⟨args.x0, a, some [], 1, "", 0⟩ else .fail .valueError
  have hst : ∀ args, (alg args).Stays (ok args) := fun args => by
    simp only [alg]
    split
    · next h => exact ⟨h, fun _ => trivial⟩
    · trivial
  have hh : MinHonest alg := fun args f g r pts h => by
    simp only [alg] at h
    split at h
    · simp only [Alg.answer] at h
      cases ha : f args.x0 with
      | error e => simp [ha] at h
      | ok a =>
        simp only [ha, Except.ok.injEq, Prod.mk.injEq] at h
        obtain ⟨rfl, rfl⟩ := h
        exact ⟨by simp, ha⟩
    · cases h
  have hx0 : (minArgs (square "L-BFGS-B" (some [[((0 : ℝ) : EReal), ((3 : ℝ) : EReal)]])) [fun _ => 2]).x0 = [2] := by rw [minArgs_x0, square_flatten]
  have hok : ok (minArgs (square "L-BFGS-B" (some [[((0 : ℝ) : EReal), ((3 : ℝ) : EReal)]])) [fun _ => 2]) [2] := fun pairs hp i a b hi => by
    have hp : some [[((0 : ℝ) : EReal), ((3 : ℝ) : EReal)]] = some pairs := hp
    cases hp
    cases i with
    | zero =>
      simp only [List.getElem?_cons_zero, Option.some.injEq, List.cons.injEq, and_true] at hi
      obtain ⟨rfl, rfl⟩ := hi
      exact ⟨EReal.coe_le_coe_iff.2 (by norm_num), EReal.coe_le_coe_iff.2 (by norm_num)⟩
    | succ i => simp at hi
  obtain ⟨st1, e1, -⟩ := exec_cost (passOn_scalar (cfg := (square "L-BFGS-B" (some [[((0 : ℝ) : EReal), ((3 : ℝ) : EReal)]])).cfg true 1) false) (fun _ => 0) [2]
    (fun a => .ret (⟨[2], a, some [], 1, "", 0⟩ : MinResult)) (prepared 1 1) (c := [4]) (c' := [4]) (by simp [square]) (square_unflatten 2)
    (by simp [square]; norm_num) rfl
  have hcall : alg (minArgs (square "L-BFGS-B" (some [[((0 : ℝ) : EReal), ((3 : ℝ) : EReal)]])) [fun _ => 2]) = .cost [2] fun a => .ret ⟨[2], a, some [], 1, "", 0⟩ := by
    simp only [alg]
    rw [hx0]
    exact if_pos hok
  obtain ⟨R, hR⟩ : ∃ R, runScalar alg (square "L-BFGS-B" (some [[((0 : ℝ) : EReal), ((3 : ℝ) : EReal)]])) (fun _ => 0) [fun _ => 2] = (.ok R, st1) := by
    have hr : ∃ R, minReport (square "L-BFGS-B" (some [[((0 : ℝ) : EReal), ((3 : ℝ) : EReal)]])) 1 ⟨[2], [(4 : ℝ)].sum, some [], 1, "", 0⟩ = .ok R := by
      unfold minReport
      simp only [square_unflatten, bind, Except.bind]
      exact ⟨_, if_pos (by simp [square])⟩
    obtain ⟨R, hR⟩ := hr
    exact ⟨R, runScalar_of (hcall ▸ e1) hR⟩
  obtain ⟨x, c, -, hl, -, -, -, hx, -⟩ := c133_scalar alg hh _ _ _ (fun y => .ok [(y.headD 0 0) ^ 2]) (fun _ => .error .valueError)
    (fun _ _ => rfl) (fun _ _ => rfl) (by simp [square]) R st1 hR
  have hx := hx rfl
  rw [show st1 = (runScalar alg (square "L-BFGS-B" (some [[((0 : ℝ) : EReal), ((3 : ℝ) : EReal)]])) (fun _ => 0) [fun _ => 2]).2 by rw [hR]] at hx
  have h0 : 0 < x.length := by rw [hl]; simp
  exact ⟨alg, x, hx, h0, c135_scalar (square "L-BFGS-B" (some [[((0 : ℝ) : EReal), ((3 : ℝ) : EReal)]])) rfl [fun _ => 2] [fun _ => ((0 : ℝ) : EReal)]
    [fun _ => ((3 : ℝ) : EReal)] rfl rfl (by simp [square, flattenT, List.finRange_succ]) _ alg hst x hx 0 (by simp) h0 0⟩

/-- **C135** fails for the default `bounds=None` of the `LeastSquaresOptimizer`, which should allow any real value: every run raises a
TypeError before the first evaluation. -/
theorem c135_violated_none {C : Nat} (o : Opt C) (hm : o.method = "trf" ∨ o.method = "dogbox" ∨ o.method = "lm")
    (hb : o.bounds = none) (alg : LsqArgs → Alg (List ℝ) (List (List ℝ)) LsqResult) (clock : Nat → ℝ) (y : Pulse ℝ C) :
    runLsq alg o clock y = (.error (.py .typeError), prepared o.F C) := by
  have h : lsqCall alg o y = .fail .typeError := by
    unfold lsqCall leastSquares
    rw [if_neg (by tauto), hb]
  unfold runLsq
  simp only [h, exec]

example : (runLsq halveSquares (square "trf" none) (fun _ => 0) [fun _ => 2]).1 = .error (.py .typeError) := by
  rw [c135_violated_none _ (.inl rfl) rfl]

/-- **C135** fails for the documented order of the bounds of the `LeastSquaresOptimizer`, the upper bounds first: every run raises a
ValueError before the first evaluation, unless each parameter has an upper below its lower bound. -/
theorem c135_violated_order {C : Nat} (o : Opt C) (lo hi : List EReal) (hb : o.bounds = some [hi, lo]) (i : Nat)
    (y : Pulse ℝ C) (hi' : i < (flattenT y).length) (hlt : lo.getD i ⊥ ≤ hi.getD i ⊤) (hl1 : i < lo.length) (hl2 : i < hi.length)
    (alg : LsqArgs → Alg (List ℝ) (List (List ℝ)) LsqResult) (clock : Nat → ℝ) :
    runLsq alg o clock y = (.error (.py .valueError), prepared o.F C) := by
  have h : lsqCall alg o y = .fail .valueError := by
    unfold lsqCall leastSquares
    rw [hb]
    split
    · rfl
    · simp only
      split
      · rfl
      split
      · rfl
      split
      · rfl
      rw [if_pos]
      refine ⟨i, hi', ?_⟩
      simp only [List.getD_eq_getElem?_getD, List.getElem?_eq_getElem hl1, List.getElem?_eq_getElem hl2, Option.getD_some] at hlt ⊢
      exact hlt
  unfold runLsq
  simp only [h, exec]

/-- Between 0 and 3, in the documented order. -/
example : (runLsq halveSquares (square "trf" (some [[((3 : ℝ) : EReal)], [((0 : ℝ) : EReal)]])) (fun _ => 0) [fun _ => 2]).1 =
    .error (.py .valueError) := by
  rw [c135_violated_order _ [((0 : ℝ) : EReal)] [((3 : ℝ) : EReal)] rfl 0 _ (by simp [square_flatten])
    (EReal.coe_le_coe_iff.2 (by norm_num)) (by simp) (by simp)]

/-- **C135** An initial pulse outside of the bounds is rejected by the `LeastSquaresOptimizer` before the first evaluation. -/
theorem c135_initial {C : Nat} (o : Opt C) (y : Pulse ℝ C) (lo hi : Pulse EReal C) (h1 : lo.length = y.length)
    (h2 : hi.length = y.length) (hb : o.bounds = some [flattenT lo, flattenT hi]) (t : Nat) (ht : t < y.length) (c : Fin C)
    (hout : ((y[t] c : ℝ) : EReal) < lo[t] c ∨ hi[t] c < ((y[t] c : ℝ) : EReal))
    (alg : LsqArgs → Alg (List ℝ) (List (List ℝ)) LsqResult) (clock : Nat → ℝ) :
    runLsq alg o clock y = (.error (.py .valueError), prepared o.F C) := by
  have h : lsqCall alg o y = .fail .valueError := by
    unfold lsqCall leastSquares
    rw [hb]
    split
    · rfl
    · simp only
      split
      · rfl
      split
      · rfl
      split
      · rfl
      split
      · rfl
      rw [if_pos]
      refine ⟨c * y.length + t, by rw [flattenT_length]; exact index_lt c.2 ht, ?_⟩
      rw [flattenT_getD y 0 _ rfl c t ht, flattenT_getD lo ⊥ _ h1 c t (by omega), flattenT_getD hi ⊤ _ h2 c t (by omega)]
      rintro ⟨k1, k2⟩
      rcases hout with h | h
      · exact absurd h (not_lt.2 k1)
      · exact absurd h (not_lt.2 k2)
  unfold runLsq
  simp only [h, exec]

example : (runLsq halveSquares (square "trf" (some [[((0 : ℝ) : EReal)], [((3 : ℝ) : EReal)]])) (fun _ => 0) [fun _ => 4]).1 = .error (.py .valueError) := by
  rw [c135_initial _ _ [fun _ => ((0 : ℝ) : EReal)] [fun _ => ((3 : ℝ) : EReal)] rfl rfl
    (by simp [square, flattenT, List.finRange_succ]) 0 (by simp) 0 (.inr (EReal.coe_lt_coe_iff.2 (by norm_num)))]

end Verif.Optim.Run
