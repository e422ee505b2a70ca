import Verif.Optim.Anneal
import Verif.Optim.Flatten
import Mathlib.Analysis.SpecialFunctions.Exp
import Mathlib.Analysis.SpecialFunctions.Log.Basic

/-!
# C101: a run of the simulated annealing (optimize.py:686-881)

`PulseAnnealer` inherits from `simanneal.Annealer`, a third-party class which is not part of the repository.  Its method `anneal`
is modelled here from its published source (version 0.5): it is part of the trusted base.  Its signal handler, its progress output
and its clean-up of the state on exit are left out.

The state is the list of the entries of the array in row-major order, as in `Verif.Optim.Anneal`; the bounds have the shape of the
pulse.  The random numbers and the times of the calls are arguments.
-/

namespace Verif.Optim.Anneal
open Verif Verif.Transfer

/-- The array of shape `(T, C)` with the entries `x` in row-major order. -/
def toRows (T C : Nat) (x : List ℝ) : Pulse ℝ C := (List.range T).map fun t c => x.getD (t * C + c.1) 0

/-- The attributes of `PulseAnnealer`, optimize.py:692-713, and the data type of its state. -/
structure Params where
  dtype : Dtype
  /-- `bounds[0]` and `bounds[1]`, or `None` -/
  bounds : Option (List ℝ × List ℝ)
  stepSize : StepSize
  stepRatio : ℝ
  tmax : ℝ
  tmin : ℝ

/-- The random numbers of one iteration and the time since the start of the optimisation at its evaluation: the steps and the mask of
`move`, and the number which decides on the acceptance. -/
structure Draw where
  steps : List ℤ
  mask : List ℝ
  accept : ℝ
  elapsed : ℝ

/-- `PulseAnnealer.move`, optimize.py:715-752, on the state: without bounds `self.bounds[0]` raises a TypeError, after the checks of
the step size. -/
noncomputable def moveState (p : Params) (x : List ℝ) (d : Draw) : Except PyErr (List ℝ) :=
  match p.bounds with
  | some (lo, hi) => move p.dtype p.stepSize p.stepRatio (rows lo hi x d.steps d.mask)
  | none => match move p.dtype p.stepSize p.stepRatio [] with
    | .error e => .error e
    | .ok _ => .error .typeError

section
variable (cfg : Cfg)

/-- `PulseAnnealer.energy`, optimize.py:754-757: `np.linalg.norm(self.energy_function(self.state.T.flatten()))`, where the energy
function is the `cost_func_wrapper` of the optimizer (optimize.py:840). `flatten` copies. -/
noncomputable def energy (st : St cfg.F cfg.C) (x : List ℝ) (elapsed : ℝ) : Except Stop ℝ × St cfg.F cfg.C :=
  match costWrapper cfg { st with heap := st.heap ++ [flattenT (toRows cfg.T cfg.C x)] } st.heap.length elapsed with
  | (.error e, st) => (.error e, st)
  | (.ok a, st) => (.ok (norm (deref st.heap a)), st)

/-- The variables of `simanneal.Annealer.anneal`, with the state of the optimizer; `seen` records the pulses handed to the
simulator so far. -/
structure Vars where
  st : St cfg.F cfg.C
  prevState : List ℝ
  prevEnergy : ℝ
  bestState : List ℝ
  bestEnergy : ℝ
  seen : List (Pulse ℝ cfg.C)

open Classical in
/-- One iteration of `simanneal.Annealer.anneal`, at temperature `t`.  `move` returns `None`, so that the energy is evaluated.  At the
beginning of each iteration `self.state` equals `prevState`. -/
noncomputable def iteration (p : Params) (t : ℝ) (v : Vars cfg) (d : Draw) : Except Stop (Vars cfg) :=
  match moveState p v.prevState d with
  | .error e => .error (.py e)
  | .ok x =>
    match energy cfg v.st x d.elapsed with
    | (.error e, _) => .error e
    | (.ok en, st) =>
      let v := { v with st := st, seen := v.seen ++ [toRows cfg.T cfg.C x] }
      let dE := en - v.prevEnergy
      if 0 < dE ∧ Real.exp (-dE / t) < d.accept then .ok v
      else
        let v := { v with prevState := x, prevEnergy := en }
        if en < v.bestEnergy then .ok { v with bestState := x, bestEnergy := en } else .ok v

/-- The temperature in iteration `k` of `n`: `Tmax * exp(Tfactor * k / n)` with `Tfactor = -log(Tmax / Tmin)`. -/
noncomputable def temperature (p : Params) (n k : Nat) : ℝ := p.tmax * Real.exp (-Real.log (p.tmax / p.tmin) * k / n)

/-- The loop of `simanneal.Annealer.anneal` over the iterations `k + 1, ..., n`. -/
noncomputable def loop (p : Params) (n : Nat) : Nat → Vars cfg → List Draw → Except Stop (Vars cfg)
  | _, v, [] => .ok v
  | k, v, d :: ds => match iteration cfg p (temperature p n (k + 1)) v d with
    | .error e => .error e
    | .ok v => loop p n (k + 1) v ds

/-- The variables before the first iteration: the initial state, with energy `en`. -/
def Vars.start (st : St cfg.F cfg.C) (x : List ℝ) (en : ℝ) : Vars cfg :=
  { st := st, prevState := x, prevEnergy := en, bestState := x, bestEnergy := en, seen := [toRows cfg.T cfg.C x] }

open Classical in
/-- `simanneal.Annealer.anneal` from the state `x`: one draw per step; `t0` is the time at the first evaluation. A minimal temperature
which is not positive is rejected, as is a ratio of the temperatures without logarithm. -/
noncomputable def anneal (p : Params) (st : St cfg.F cfg.C) (x : List ℝ) (t0 : ℝ) (draws : List Draw) : Except Stop (Vars cfg) :=
  if p.tmin ≤ 0 then .error (.py .exception)
  else if p.tmax / p.tmin ≤ 0 then .error (.py .valueError)
  else match energy cfg st x t0 with
    | (.error e, _) => .error e
    | (.ok en, st) => loop cfg p draws.length 0 (Vars.start cfg st x en) draws

/-- The fields of the `OptimizationResult` which `SimulatedAnnealing.run_optimization` builds, optimize.py:866-873; the others keep
their defaults (optimization_data.py:108-118). -/
structure Report (C : Nat) where
  finalCost : ℝ
  finalParameters : Pulse ℝ C
  initParameters : Option (Pulse ℝ C) := none
  numIter : Option Nat := none
  terminationReason : String := "not started yet"
  status : Option ℤ := none

/-- `SimulatedAnnealing.run_optimization`, optimize.py:850-875, and `prepare_optimization`, 877-882: the result and the pulses which
were simulated.  No exception is caught. -/
noncomputable def runOptimization (p : Params) (x : List ℝ) (t0 : ℝ) (draws : List Draw) :
    Except Stop (Report cfg.C × List (Pulse ℝ cfg.C)) :=
  match anneal cfg p (prepared cfg.F cfg.C) x t0 draws with
  | .error e => .error e
  | .ok v => .ok ({ finalCost := v.bestEnergy, finalParameters := toRows cfg.T cfg.C v.bestState }, v.seen)

end

/-! ## The evaluation of one state -/

theorem toRows_length (T C : Nat) (x : List ℝ) : (toRows T C x).length = T := by simp [toRows]

/-- The configuration of an annealing optimizer, optimize.py:821-833: no weights, no intermediary steps; the simulator is a function
of the pulse. -/
structure Annealing (cfg : Cfg) (f : Pulse ℝ cfg.C → Except PyErr (List ℝ)) : Prop where
  weights : cfg.weights = none
  save : cfg.save = false
  sim : ∀ k y, cfg.sim k y = f y

theorem energy_cases {cfg : Cfg} {f : Pulse ℝ cfg.C → Except PyErr (List ℝ)} (hc : Annealing cfg f) (st : St cfg.F cfg.C) (x : List ℝ)
    (t : ℝ) :
    (∃ st', cfg.maxWall < t ∧ energy cfg st x t = (.error .wallTime, st')) ∨
    (∃ e st', ¬ cfg.maxWall < t ∧ f (toRows cfg.T cfg.C x) = .error e ∧ energy cfg st x t = (.error (.py e), st')) ∨
    (∃ v st', ¬ cfg.maxWall < t ∧ f (toRows cfg.T cfg.C x) = .ok v ∧ energy cfg st x t = (.ok (norm v), st')) := by
  have hu : unflatten cfg.T cfg.C (flattenT (toRows cfg.T cfg.C x)) = .ok (toRows cfg.T cfg.C x) := by
    have := c59_unflatten_flatten (toRows cfg.T cfg.C x)
    rwa [toRows_length] at this
  have hd : deref (st.heap ++ [flattenT (toRows cfg.T cfg.C x)]) st.heap.length = flattenT (toRows cfg.T cfg.C x) := by
    simp [deref]
  by_cases ht : cfg.maxWall < t
  · left
    simp only [energy, costWrapper, ht, if_true]
    exact ⟨_, trivial, rfl⟩
  · right
    cases hf : f (toRows cfg.T cfg.C x) with
    | error e =>
      left
      simp only [energy, costWrapper, ht, if_false, hd, hu, hc.sim, hf]
      exact ⟨e, _, not_false, rfl, rfl⟩
    | ok v =>
      right
      simp only [energy, costWrapper, ht, if_false, hd, hu, hc.sim, hf, hc.save, hc.weights, weigh, Bool.false_eq_true]
      refine ⟨v, _, not_false, rfl, Prod.ext (congrArg Except.ok (congrArg norm ?_)) rfl⟩
      have hite : ∀ (P : Prop) {_ : Decidable P} (a b : St cfg.F cfg.C) (l : List (List ℝ)), a.heap = l → b.heap = l →
          (if P then a else b).heap = l := fun P _ a b l h1 h2 => by split <;> assumption
      rw [hite _ _ _ (st.heap ++ [flattenT (toRows cfg.T cfg.C x)] ++ [v]) rfl rfl]
      simp [deref]

/-! ## Invariants -/

/-- The pulses simulated so far contain the best one, and none of them is better. -/
structure Inv {cfg : Cfg} (f : Pulse ℝ cfg.C → Except PyErr (List ℝ)) (v : Vars cfg) : Prop where
  best : toRows cfg.T cfg.C v.bestState ∈ v.seen
  energy : ∃ c, f (toRows cfg.T cfg.C v.bestState) = .ok c ∧ v.bestEnergy = norm c
  prev : v.bestEnergy ≤ v.prevEnergy
  least : ∀ y ∈ v.seen, ∃ c, f y = .ok c ∧ v.bestEnergy ≤ norm c

theorem inv_iteration {cfg : Cfg} {f : Pulse ℝ cfg.C → Except PyErr (List ℝ)} (hc : Annealing cfg f) (p : Params) (t : ℝ)
    (v v' : Vars cfg) (d : Draw) (hv : Inv f v) (h : iteration cfg p t v d = .ok v') :
    Inv f v' ∧ v'.seen.length = v.seen.length + 1 ∧ v'.seen.head? = v.seen.head? := by
  have hne : v.seen ≠ [] := List.ne_nil_of_mem hv.best
  have hh : ∀ y, (v.seen ++ [y]).head? = v.seen.head? := fun y => by
    cases hs : v.seen with
    | nil => exact absurd hs hne
    | cons => rfl
  unfold iteration at h
  split at h
  · cases h
  · next x hx =>
    rcases energy_cases hc v.st x d.elapsed with ⟨st', _, he⟩ | ⟨e, st', _, _, he⟩ | ⟨c, st', _, hf, he⟩
    · rw [he] at h; cases h
    · rw [he] at h; cases h
    · rw [he] at h
      simp only at h
      split at h
      · next hrej =>
        cases h
        refine ⟨⟨by simp [hv.best], hv.energy, hv.prev, fun y hy => ?_⟩, by simp, hh _⟩
        rcases List.mem_append.1 hy with hy | hy
        · exact hv.least y hy
        · rw [List.mem_singleton.1 hy]
          exact ⟨c, hf, by have := hrej.1; have := hv.prev; simp only at *; linarith⟩
      · split at h
        · next hb =>
          cases h
          refine ⟨⟨by simp, ⟨c, hf, rfl⟩, le_refl _, fun y hy => ?_⟩, by simp, hh _⟩
          rcases List.mem_append.1 hy with hy | hy
          · obtain ⟨c', h1, h2⟩ := hv.least y hy
            exact ⟨c', h1, by simp only at *; linarith⟩
          · rw [List.mem_singleton.1 hy]
            exact ⟨c, hf, le_refl _⟩
        · next hb =>
          cases h
          refine ⟨⟨by simp [hv.best], hv.energy, not_lt.1 hb, fun y hy => ?_⟩, by simp, hh _⟩
          rcases List.mem_append.1 hy with hy | hy
          · exact hv.least y hy
          · rw [List.mem_singleton.1 hy]
            exact ⟨c, hf, not_lt.1 hb⟩

theorem inv_loop {cfg : Cfg} {f : Pulse ℝ cfg.C → Except PyErr (List ℝ)} (hc : Annealing cfg f) (p : Params) (n : Nat) :
    ∀ (ds : List Draw) (k : Nat) (v v' : Vars cfg), Inv f v → loop cfg p n k v ds = .ok v' →
      Inv f v' ∧ v'.seen.length = v.seen.length + ds.length ∧ v'.seen.head? = v.seen.head?
  | [], _, v, v', hv, h => by cases h; exact ⟨hv, rfl, rfl⟩
  | d :: ds, k, v, v', hv, h => by
    unfold loop at h
    split at h
    · cases h
    · next v1 h1 =>
      obtain ⟨i1, l1, e1⟩ := inv_iteration hc p _ v v1 d hv h1
      obtain ⟨i2, l2, e2⟩ := inv_loop hc p n ds (k + 1) v1 v' i1 h
      refine ⟨i2, ?_, e2.trans e1⟩
      simp only [List.length_cons]; omega

/-- **C101** (the result): a run that returns has simulated the initial pulse and one further pulse per step; the reported pulse is
one of them, the reported cost is the norm of its costs, and no simulated pulse has a smaller one.  For every simulator, all random
numbers and temperatures. -/
theorem c101_best {cfg : Cfg} {f : Pulse ℝ cfg.C → Except PyErr (List ℝ)} (hc : Annealing cfg f) (p : Params) (x : List ℝ) (t0 : ℝ)
    (draws : List Draw) (r : Report cfg.C) (seen : List (Pulse ℝ cfg.C)) (h : runOptimization cfg p x t0 draws = .ok (r, seen)) :
    seen.head? = some (toRows cfg.T cfg.C x) ∧ seen.length = draws.length + 1 ∧ r.finalParameters ∈ seen ∧
      (∃ c, f r.finalParameters = .ok c ∧ r.finalCost = norm c) ∧ ∀ y ∈ seen, ∃ c, f y = .ok c ∧ r.finalCost ≤ norm c := by
  unfold runOptimization at h
  split at h
  · cases h
  · next v hv =>
    cases h
    unfold anneal at hv
    split at hv
    · cases hv
    · split at hv
      · cases hv
      · rcases energy_cases hc (prepared cfg.F cfg.C) x t0 with ⟨st', _, he⟩ | ⟨e, st', _, _, he⟩ | ⟨c, st', _, hf, he⟩
        · rw [he] at hv; cases hv
        · rw [he] at hv; cases hv
        · rw [he] at hv
          simp only at hv
          obtain ⟨i, l, hd⟩ := inv_loop hc p draws.length draws 0 _ v
            ⟨by simp [Vars.start], ⟨c, hf, rfl⟩, le_refl _, fun y hy => by rw [List.mem_singleton.1 (show y ∈ [toRows cfg.T cfg.C x] from hy)]; exact ⟨c, hf, le_refl _⟩⟩ hv
          exact ⟨hd, by rw [l]; simp only [Vars.start, List.length_singleton]; omega, i.best, i.energy, i.least⟩

/-! ## Bounds -/

/-- Specification: every entry of the pulse lies between the entries of the bounds. -/
def PulseWithin {C : Nat} (lo hi y : Pulse ℝ C) : Prop :=
  ∀ t (c : Fin C), t < y.length → (lo.getD t fun _ => 0) c ≤ (y.getD t fun _ => 0) c ∧ (y.getD t fun _ => 0) c ≤ (hi.getD t fun _ => 0) c

theorem within_rows {T C : Nat} {lo hi x : List ℝ} (hx : x.length = T * C) (h : Within lo hi x) :
    PulseWithin (toRows T C lo) (toRows T C hi) (toRows T C x) := by
  intro t c ht
  rw [toRows_length] at ht
  have hk : t * C + c.1 < x.length := by
    rw [hx]
    have : t * C + C ≤ T * C := by rw [← Nat.succ_mul]; exact Nat.mul_le_mul_right _ ht
    have := c.2
    omega
  have := h.2.2 _ hk
  simpa [toRows, ht] using this

/-- The states of the annealer and the pulses simulated are within the bounds. -/
structure WInv {cfg : Cfg} (lo hi : List ℝ) (v : Vars cfg) : Prop where
  prev : Within lo hi v.prevState
  seen : ∀ y ∈ v.seen, PulseWithin (toRows cfg.T cfg.C lo) (toRows cfg.T cfg.C hi) y

theorem winv_iteration {cfg : Cfg} (p : Params) (lo hi : List ℝ) (hb : p.bounds = some (lo, hi)) (n : ℤ) (hn : p.stepSize = .int n)
    (hl : lo.length = cfg.T * cfg.C) (hlo : ∀ b ∈ lo, Representable p.dtype b) (hhi : ∀ b ∈ hi, Representable p.dtype b) (t : ℝ)
    (v v' : Vars cfg) (d : Draw) (hd : (Act.move d.steps d.mask).Legal n lo.length) (hv : WInv lo hi v)
    (h : iteration cfg p t v d = .ok v') : WInv lo hi v' := by
  unfold iteration at h
  split at h
  · cases h
  · next x hx =>
    have hw : Within lo hi x := by
      unfold moveState at hx
      rw [hb, hn] at hx
      exact (c65_move_partial p.dtype n p.stepRatio lo hi v.prevState d.steps d.mask x hv.prev (by rw [← hv.prev.1]; exact hd) hlo hhi hx).1
    have hs : ∀ y ∈ v.seen ++ [toRows cfg.T cfg.C x], PulseWithin (toRows cfg.T cfg.C lo) (toRows cfg.T cfg.C hi) y := by
      intro y hy
      rcases List.mem_append.1 hy with hy | hy
      · exact hv.seen y hy
      · rw [List.mem_singleton.1 hy]; exact within_rows (hw.1.symm.trans hl) hw
    split at h
    · cases h
    · simp only at h
      split at h
      · cases h; exact ⟨hv.prev, hs⟩
      · split at h
        · cases h; exact ⟨hw, hs⟩
        · cases h; exact ⟨hw, hs⟩

theorem winv_loop {cfg : Cfg} (p : Params) (lo hi : List ℝ) (hb : p.bounds = some (lo, hi)) (n : ℤ) (hn : p.stepSize = .int n)
    (hl : lo.length = cfg.T * cfg.C) (hlo : ∀ b ∈ lo, Representable p.dtype b) (hhi : ∀ b ∈ hi, Representable p.dtype b) (m : Nat) :
    ∀ (ds : List Draw) (k : Nat) (v v' : Vars cfg), (∀ d ∈ ds, (Act.move d.steps d.mask).Legal n lo.length) → WInv lo hi v →
      loop cfg p m k v ds = .ok v' → WInv lo hi v'
  | [], _, v, v', _, hv, h => by cases h; exact hv
  | d :: ds, k, v, v', hds, hv, h => by
    unfold loop at h
    split at h
    · cases h
    · next v1 h1 =>
      exact winv_loop p lo hi hb n hn hl hlo hhi m ds (k + 1) v1 v' (fun a ha => hds a (by simp [ha]))
        (winv_iteration p lo hi hb n hn hl hlo hhi _ v v1 d (hds d (by simp)) hv h1) h

/-- **C101** (bounds, partial): if the initial pulse is within the bounds, so is every pulse that is simulated.  Missing: an array of
integers with bounds that are not integers, as in C65 (`c65_violated`). -/
theorem c101_within_partial {cfg : Cfg} (p : Params) (lo hi x : List ℝ) (n : ℤ) (t0 : ℝ) (draws : List Draw) (r : Report cfg.C)
    (seen : List (Pulse ℝ cfg.C)) (hb : p.bounds = some (lo, hi)) (hn : p.stepSize = .int n) (hl : x.length = cfg.T * cfg.C)
    (hx : Within lo hi x) (hlo : ∀ b ∈ lo, Representable p.dtype b) (hhi : ∀ b ∈ hi, Representable p.dtype b)
    (hd : ∀ d ∈ draws, (Act.move d.steps d.mask).Legal n x.length) (h : runOptimization cfg p x t0 draws = .ok (r, seen)) :
    ∀ y ∈ seen, PulseWithin (toRows cfg.T cfg.C lo) (toRows cfg.T cfg.C hi) y := by
  unfold runOptimization at h
  split at h
  · cases h
  · next v hv =>
    cases h
    unfold anneal at hv
    split at hv
    · cases hv
    · split at hv
      · cases hv
      · split at hv
        · cases hv
        · refine (winv_loop p lo hi hb n hn (hx.1.trans hl) hlo hhi draws.length draws 0 _ v
            (fun d h => by rw [hx.1]; exact hd d h) ⟨hx, fun y hy => ?_⟩ hv).seen
          rw [List.mem_singleton.1 (show y ∈ [toRows cfg.T cfg.C x] from hy)]; exact within_rows hl hx

/-! ## Runs that return -/

/-- **C101** (termination with a result): with a positive integer step size, bounds, positive temperatures, enough time and a
simulator which does not raise, the run returns, for all random numbers. -/
theorem c101_returns {cfg : Cfg} {f : Pulse ℝ cfg.C → Except PyErr (List ℝ)} (hc : Annealing cfg f) (p : Params) (x : List ℝ) (t0 : ℝ)
    (draws : List Draw) (lo hi : List ℝ) (n : ℤ) (hb : p.bounds = some (lo, hi)) (hn : p.stepSize = .int n) (h0 : 0 < n)
    (ht : 0 < p.tmin) (hT : 0 < p.tmax) (hf : ∀ y, ∃ c, f y = .ok c) (ht0 : t0 ≤ cfg.maxWall)
    (htime : ∀ d ∈ draws, d.elapsed ≤ cfg.maxWall) : ∃ r seen, runOptimization cfg p x t0 draws = .ok (r, seen) := by
  have he : ∀ (st : St cfg.F cfg.C) (y : List ℝ) (t : ℝ), t ≤ cfg.maxWall → ∃ en st', energy cfg st y t = (.ok en, st') := by
    intro st y t hle
    rcases energy_cases hc st y t with ⟨_, h, _⟩ | ⟨e, _, _, h, _⟩ | ⟨c, st', _, _, h⟩
    · exact absurd h (not_lt.2 hle)
    · obtain ⟨c, hc'⟩ := hf (toRows cfg.T cfg.C y)
      rw [hc'] at h; cases h
    · exact ⟨_, _, h⟩
  have hit : ∀ (t : ℝ) (v : Vars cfg) (d : Draw), d.elapsed ≤ cfg.maxWall → ∃ v', iteration cfg p t v d = .ok v' := by
    intro t v d hle
    obtain ⟨y, hy⟩ := (c65_rejects p.dtype p.stepSize p.stepRatio (rows lo hi v.prevState d.steps d.mask)).1.2 ⟨n, hn, h0⟩
    obtain ⟨en, st', h⟩ := he v.st y d.elapsed hle
    unfold iteration
    rw [show moveState p v.prevState d = .ok y by unfold moveState; rw [hb]; exact hy]
    simp only [h]
    split
    · exact ⟨_, rfl⟩
    · split <;> exact ⟨_, rfl⟩
  have hloop : ∀ (m : Nat) (ds : List Draw) (k : Nat) (v : Vars cfg), (∀ d ∈ ds, d.elapsed ≤ cfg.maxWall) →
      ∃ v', loop cfg p m k v ds = .ok v' := by
    intro m ds
    induction ds with
    | nil => exact fun _ v _ => ⟨v, rfl⟩
    | cons d ds ih =>
      intro k v hds
      obtain ⟨v1, h1⟩ := hit (temperature p m (k + 1)) v d (hds d (by simp))
      obtain ⟨v2, h2⟩ := ih (k + 1) v1 fun a ha => hds a (by simp [ha])
      exact ⟨v2, by unfold loop; rw [h1]; exact h2⟩
  obtain ⟨en, st', h⟩ := he (prepared cfg.F cfg.C) x t0 ht0
  have hr : ¬ p.tmax / p.tmin ≤ 0 := not_le.2 (div_pos hT ht)
  obtain ⟨v, hv⟩ := hloop draws.length draws 0 (Vars.start cfg st' x en) htime
  refine ⟨{ finalCost := v.bestEnergy, finalParameters := toRows cfg.T cfg.C v.bestState }, v.seen, ?_⟩
  unfold runOptimization anneal
  simp only [not_le.2 ht, hr, if_false, h, hv]

/-- **C101** (without bounds): although the bounds are optional in the constructor, a run without them which reaches its first move ends
with a TypeError, or with the ValueError for an unusable step size. -/
theorem c101_no_bounds {cfg : Cfg} {f : Pulse ℝ cfg.C → Except PyErr (List ℝ)} (hc : Annealing cfg f) (p : Params) (x : List ℝ) (t0 : ℝ)
    (d : Draw) (draws : List Draw) (hb : p.bounds = none) (ht : 0 < p.tmin) (hT : 0 < p.tmax) (hf : ∀ y, ∃ c, f y = .ok c)
    (ht0 : t0 ≤ cfg.maxWall) :
    ((∃ n, p.stepSize = .int n ∧ 0 < n) → runOptimization cfg p x t0 (d :: draws) = .error (.py .typeError)) ∧
    ((¬ ∃ n, p.stepSize = .int n ∧ 0 < n) → runOptimization cfg p x t0 (d :: draws) = .error (.py .valueError)) := by
  have he : ∃ en st', energy cfg (prepared cfg.F cfg.C) x t0 = (.ok en, st') := by
    rcases energy_cases hc (prepared cfg.F cfg.C) x t0 with ⟨_, h, _⟩ | ⟨e, _, _, h, _⟩ | ⟨c, st', _, _, h⟩
    · exact absurd h (not_lt.2 ht0)
    · obtain ⟨c, hc'⟩ := hf (toRows cfg.T cfg.C x)
      rw [hc'] at h; cases h
    · exact ⟨_, _, h⟩
  obtain ⟨en, st', h⟩ := he
  have hr : ¬ p.tmax / p.tmin ≤ 0 := not_le.2 (div_pos hT ht)
  have key : ∀ e, moveState p x d = .error e → runOptimization cfg p x t0 (d :: draws) = .error (.py e) := by
    intro e hm
    have hm' : moveState p (Vars.start cfg st' x en).prevState d = .error e := hm
    unfold runOptimization anneal
    simp only [not_le.2 ht, hr, if_false, h, loop, iteration, hm']
  have hr := c65_rejects p.dtype p.stepSize p.stepRatio []
  refine ⟨fun hs => key _ ?_, fun hs => key _ ?_⟩
  · obtain ⟨y, hy⟩ := hr.1.2 hs
    unfold moveState
    simp only [hb, hy]
  · unfold moveState
    simp only [hb, hr.2 fun n h h0 => hs ⟨n, h, h0⟩]

/-! ## Violations -/

/-- **C101** fails for the report: every run which returns says that it has not started yet, without status, number of iterations and
initial pulse. -/
theorem c101_violated_report {cfg : Cfg} (p : Params) (x : List ℝ) (t0 : ℝ) (draws : List Draw) (r : Report cfg.C)
    (seen : List (Pulse ℝ cfg.C)) (h : runOptimization cfg p x t0 draws = .ok (r, seen)) :
    r.terminationReason = "not started yet" ∧ r.status = none ∧ r.numIter = none ∧ r.initParameters = none := by
  unfold runOptimization at h
  split at h
  · cases h
  · cases h; exact ⟨rfl, rfl, rfl, rfl⟩

/-- One time step, one control, two cost functions: the amplitude and its fourfold third. -/
def small : Cfg :=
  { T := 1, C := 1, F := 2, weights := none, save := false, useJac := true, scalar := false, maxWall := 600,
    sim := fun _ y => .ok (y.flatMap fun r => [3 * r 0, 4 * r 0]), jac := fun _ _ => .error .notImplementedError }

/-- Integers between 0 and 5, steps of one. -/
def unit : Params := { dtype := .int, bounds := some ([0], [5]), stepSize := .int 1, stepRatio := 1, tmax := 1, tmin := 1 }

theorem small_annealing : Annealing small (small.sim 0) := ⟨rfl, rfl, fun _ _ => rfl⟩

theorem unit_returns (draws : List Draw) (h : ∀ d ∈ draws, d.elapsed ≤ 600) :
    ∃ r seen, runOptimization small unit [2] 0 draws = .ok (r, seen) :=
  c101_returns small_annealing unit [2] 0 draws [0] [5] 1 rfl rfl (by norm_num) (by norm_num [unit]) (by norm_num [unit])
    (fun y => ⟨_, rfl⟩) (by norm_num [small]) h

/-- `c101_no_bounds` applies. -/
example (d : Draw) : runOptimization small { unit with bounds := none } [2] 0 [d] = .error (.py .typeError) :=
  (c101_no_bounds small_annealing { unit with bounds := none } [2] 0 d [] rfl (by norm_num [unit]) (by norm_num [unit]) (fun _ => ⟨_, rfl⟩)
    (by norm_num [small])).1 ⟨1, rfl, by norm_num⟩

/-- **C101** fails for the costs: with two cost functions the reported cost is not the list of the costs but their norm. -/
theorem c101_violated_costs : ∃ r seen, runOptimization small unit [2] 0 [] = .ok (r, seen) ∧
    small.sim 0 r.finalParameters = .ok [6, 8] ∧ r.finalCost = 10 := by
  obtain ⟨r, seen, h⟩ := unit_returns [] (by simp)
  obtain ⟨h1, h2, h3, ⟨c, h4, h5⟩, _⟩ := c101_best small_annealing _ _ _ _ r seen h
  have hs : seen = [toRows 1 1 [2]] := by
    match seen, h1, h2 with
    | [a], h1, _ => exact congrArg (fun z => [z]) (Option.some.inj h1)
  have hp : r.finalParameters = toRows 1 1 [2] := by rw [hs] at h3; exact List.mem_singleton.1 h3
  have hv : (.ok ((toRows 1 1 [2]).flatMap fun r => [3 * r 0, 4 * r 0]) : Except PyErr (List ℝ)) = .ok [6, 8] := by
    norm_num [toRows]
  refine ⟨r, seen, h, ?_, ?_⟩
  · rw [hp]; exact hv
  · rw [hp] at h4
    have h4' := h4.symm.trans hv
    cases h4'
    rw [h5, norm]
    rw [show ((List.map (fun x : ℝ => x ^ 2) [6, 8]).sum) = 10 ^ 2 by norm_num]
    exact Real.sqrt_sq (by norm_num)

/-- **C101** fails for the time limit: when it is exceeded in a later step the exception of the wrapper reaches the caller and the
best pulse is lost, although the first evaluation was in time and other optimizers return it (C63). -/
theorem c101_violated_wall : runOptimization small unit [2] 0 [{ steps := [1], mask := [0], accept := 0, elapsed := 601 }] =
    .error .wallTime := by
  have h1 : ¬ (1 : ℝ) ≤ 0 := by norm_num
  rcases energy_cases small_annealing (prepared _ _) [2] 0 with ⟨_, h, _⟩ | ⟨e, _, _, h, _⟩ | ⟨c, st', _, _, h⟩
  · exact absurd h (by norm_num [small])
  · cases h
  · obtain ⟨y, hy⟩ := (c65_rejects unit.dtype unit.stepSize unit.stepRatio (rows [0] [5] [2] [1] [0])).1.2 ⟨1, rfl, by norm_num⟩
    have hm : moveState unit [2] { steps := [1], mask := [0], accept := 0, elapsed := 601 } = .ok y := hy
    rcases energy_cases small_annealing st' y 601 with ⟨st2, _, h'⟩ | ⟨e, _, h', _⟩ | ⟨c, _, h', _⟩
    · simp only [runOptimization, anneal, unit, h1, if_false, div_one] at *
      simp only [h, loop, iteration, Vars.start, hm, h']
    · exact absurd (show small.maxWall < 601 by norm_num [small]) h'
    · exact absurd (show small.maxWall < 601 by norm_num [small]) h'

/-! ## Cases -/

/-- The hypotheses of the theorems hold for a run of three steps with arbitrary moves and acceptance numbers. -/
example (a b c : Draw) (h : ∀ d ∈ [a, b, c], d.elapsed ≤ 600 ∧ (Act.move d.steps d.mask).Legal 1 1) :
    ∃ r seen, runOptimization small unit [2] 0 [a, b, c] = .ok (r, seen) ∧ seen.length = 4 ∧
      ∀ y ∈ seen, PulseWithin (toRows 1 1 [0]) (toRows 1 1 [5]) y := by
  obtain ⟨r, seen, hr⟩ := unit_returns [a, b, c] fun d hd => (h d hd).1
  refine ⟨r, seen, hr, (c101_best small_annealing _ _ _ _ r seen hr).2.1, ?_⟩
  refine c101_within_partial unit [0] [5] [2] 1 0 [a, b, c] r seen rfl rfl rfl ⟨rfl, rfl, ?_⟩ ?_ ?_ (fun d hd => (h d hd).2) hr
  · intro i hi
    match i, hi with
    | 0, _ => norm_num
  · intro b hb; simp at hb; subst hb; exact_mod_cast representable_int 0
  · intro b hb; simp at hb; subst hb; exact_mod_cast representable_int 5

end Verif.Optim.Anneal
