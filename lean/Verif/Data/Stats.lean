import Verif.Py
import Mathlib.Data.Real.Basic
import Mathlib.Data.List.GetD
import Mathlib.Algebra.BigOperators.Group.List.Basic
import Mathlib.Algebra.Order.BigOperators.Group.List
import Mathlib.Tactic.Linarith
import Mathlib.Tactic.NormNum

/-!
# The performance statistics (performance_statistics.py:40-67, simulator.py:134-208, 252-288, optimize.py:307-361, 415-460,
527-633, 852-881, analyser.py:161-249)

The objects of class `PerformanceStatistics` live on a heap, because the simulator, the results and the data container refer to
the same object.  The clock is a number in the world; how much time passes where is an argument of every step.

Simplifications: what the cost functions compute is not part of this model; `indices` is left out.
-/

namespace Verif.Data.Timing
open Verif

/-- `PerformanceStatistics`, performance_statistics.py:62-67. -/
structure Stats where
  /-- `start_t_opt` -/
  start : Option ℝ := none
  /-- `end_t_opt` -/
  stop : Option ℝ := none
  /-- `cost_func_eval_times` -/
  cost : List (List ℝ) := []
  /-- `grad_func_eval_times` -/
  grad : List (List ℝ) := []

/-- The simulator with its statistics, and the clock. -/
structure World where
  /-- all statistics objects ever made -/
  heap : List Stats
  /-- `Simulator.stats`: `None` or the position of the object -/
  stats : Option Nat
  /-- `Simulator.numeric_jacobian` -/
  numeric : Bool
  /-- `time.time()` -/
  now : ℝ

/-- `Simulator.__init__`, simulator.py:134-137. -/
def init (record numeric : Bool) (now : ℝ) : World :=
  if record then ⟨[{}], some 0, numeric, now⟩ else ⟨[], none, numeric, now⟩

/-- What one cost function takes: the time until its clock is started, and the time it runs. -/
structure Lap where
  gap : ℝ
  dur : ℝ

/-- One pass through the cost functions: the functions which return, the time which passes afterwards, and whether the pass ends
with an exception (of the cost function after the listed ones, of `np.concatenate`, ...). -/
structure Pass where
  laps : List Lap
  rest : ℝ
  raises : Bool := false

/-- Changing the object the simulator writes to. -/
def World.write (w : World) (f : Stats → Stats) : World :=
  match w.stats with
  | none => w
  | some a => { w with heap := w.heap.modify a f }

def World.wait (w : World) (t : ℝ) : World := { w with now := w.now + t }

/-- `l[-1].append(x)`. -/
def pushLast (l : List (List ℝ)) (x : ℝ) : List (List ℝ) := l.dropLast ++ [l.getLastD [] ++ [x]]

/-- The body of the loop over the cost functions, simulator.py:205-208: two readings of the clock and their difference. -/
def costLap (w : World) (l : Lap) : World :=
  let w := w.wait l.gap
  let tStart := w.now
  let w := w.wait l.dur
  let tEnd := w.now
  w.write fun s => { s with cost := pushLast s.cost (tEnd - tStart) }

/-- `Simulator.wrapped_cost_functions`, simulator.py:202-230: a new row, then one entry for each cost function. -/
def costPass (w : World) (p : Pass) : World :=
  (p.laps.foldl costLap (w.write fun s => { s with cost := s.cost ++ [[]] })).wait p.rest

/-- The body of the loop over the cost functions, simulator.py:269-288. -/
def gradLap (w : World) (l : Lap) : World :=
  let w := w.wait l.gap
  let tStart := w.now
  let w := w.wait l.dur
  let tEnd := w.now
  w.write fun s => { s with grad := pushLast s.grad (tEnd - tStart) }

/-- `Simulator.wrapped_jac_function` with analytic gradients, simulator.py:264-293. -/
def gradPass (w : World) (p : Pass) : World :=
  (p.laps.foldl gradLap (w.write fun s => { s with grad := s.grad ++ [[]] })).wait p.rest

/-- A call of one of the two methods.  A numeric gradient goes through the cost functions several times, `p :: more`. -/
inductive Call where
  | cost (p : Pass)
  | jac (p : Pass) (more : List Pass)

/-- The passes of `numeric_gradient`, simulator.py:366-385, up to the first exception. -/
def costPasses (w : World) : List Pass → World × Bool
  | [] => (w, false)
  | p :: ps => if p.raises then (costPass w p, true) else costPasses (costPass w p) ps

/-- The two methods, simulator.py:171-293, and whether they end with an exception. -/
def call (w : World) : Call → World × Bool
  | .cost p => (costPass w p, p.raises)
  | .jac p more => if w.numeric then costPasses w (p :: more) else (gradPass w p, p.raises)

/-- The calls made by the optimization routine, with the time that passes before each. -/
def calls (w : World) : List (ℝ × Call) → World × Bool
  | [] => (w, false)
  | (t, c) :: cs => match call (w.wait t) c with
    | (w, true) => (w, true)
    | (w, false) => calls w cs

/-- `self.system_simulator.stats.end_t_opt = time.time()` -/
def setEnd (w : World) : World := w.write fun s => { s with stop := some w.now }

inductive Opt where
  | leastSquares
  | scalar
  | annealing

/-- How the optimization routine comes back when none of the calls raised an exception of its own. -/
inductive Ending where
  | normal
  | wallTime
  | exception

/-- One call of `run_optimization`. -/
structure Run where
  opt : Opt
  /-- `use_jacobian_function` -/
  useJac : Bool
  /-- the time until `_opt_start_time` is read -/
  before : ℝ
  calls : List (ℝ × Call)
  ending : Ending
  /-- the time between the last call and the end of the routine -/
  after : ℝ
  /-- the Jacobian `write_state_to_result` computes, optimize.py:337-339 -/
  last : Call
  /-- the time between the construction of the result and the return (`ScalarMinimizingOptimizer`) -/
  final : ℝ

/-- `Optimizer.prepare_optimization`, optimize.py:311-320: a new object if the simulator has one. -/
def prepare (w : World) : World :=
  match w.stats with
  | none => w
  | some _ => { w with heap := w.heap ++ [{ start := some w.now }], stats := some w.heap.length }

/-- `Optimizer.write_state_to_result`, optimize.py:334-341. -/
def writeState (w : World) (useJac : Bool) (last : Call) : World × Bool :=
  let w := setEnd w
  if useJac then call w last else (w, false)

/-- `run_optimization` of the three optimizers, optimize.py:408-460, 527-633, 852-875.  The second component is
`optimization_stats` of the result (`none` when the run ends with an exception). -/
def runOptimization (w : World) (r : Run) : World × Option (Option Nat) :=
  let w := prepare (w.wait r.before)
  match calls w r.calls with
  | (w, true) => (w, none)
  | (w, false) =>
    let w := w.wait r.after
    match r.opt, r.ending with
    | _, .exception => (w, none)
    | .annealing, .wallTime => (w, none)
    | .leastSquares, .normal => (setEnd w, some w.stats)
    | .annealing, .normal => (setEnd w, some w.stats)
    | .scalar, .normal => (setEnd (w.wait r.final), some w.stats)
    | .leastSquares, .wallTime => match writeState w r.useJac r.last with
      | (w, true) => (w, none)
      | (w, false) => (w, some w.stats)
    | .scalar, .wallTime => match writeState w r.useJac r.last with
      | (w, true) => (w, none)
      | (w, false) => (setEnd (w.wait r.final), some w.stats)

/-- What the user does with a simulator: evaluate it, or optimize. -/
inductive Act where
  | call (c : Call)
  | run (r : Run)

/-- A session; the results are collected in the order of the runs. -/
def session : World → List Act → World × List (Option Nat)
  | w, [] => (w, [])
  | w, .call c :: as => session (call w c).1 as
  | w, .run r :: as =>
    let (w', res) := runOptimization w r
    let (w'', rs) := session w' as
    (w'', res.toList ++ rs)

/-! ## The analyser -/

/-- `self.data.optimization_statistics[n]`, then an attribute: AttributeError for `None`. -/
def object (heap : List Stats) : Option Nat → Except PyErr Stats
  | none => .error .attributeError
  | some a => match heap[a]? with
    | some s => .ok s
    | none => .error .attributeError

/-- `np.sum(np.asarray(times), axis=0)`, then `np.sum`, analyser.py:177-178, 229: column sums of a rectangular array, ValueError
for rows of different lengths. -/
noncomputable def columnTotal (times : List (List ℝ)) : Except PyErr ℝ :=
  if ∀ r ∈ times, r.length = (times.headD []).length then
    .ok ((List.range (times.headD []).length).map fun j => (times.map fun r => r.getD j 0).sum).sum
  else .error .valueError

/-- `Analyser.opt_times`, analyser.py:198-213: TypeError while one of the two times is `None`. -/
noncomputable def optTimes (heap : List Stats) : List (Option Nat) → Except PyErr (List ℝ)
  | [] => .ok []
  | a :: l => do
    let s ← object heap a
    match s.stop, s.start with
    | some e, some b => do
      let rest ← optTimes heap l
      pure ((e - b) :: rest)
    | _, _ => .error .typeError

/-- `Analyser.total_cost_fkt_time` and `total_grad_fkt_time`, analyser.py:215-241. -/
noncomputable def totalTime (heap : List Stats) (times : Stats → List (List ℝ)) : List (Option Nat) → Except PyErr ℝ
  | [] => .ok 0
  | a :: l => do
    let s ← object heap a
    let t ← columnTotal (times s)
    let rest ← totalTime heap times l
    pure (t + rest)

/-- `Analyser.time_share_cost_fkt` and `time_share_grad_fkt`, analyser.py:243-249; `none` stands for the `nan` or `inf` of a
division by zero. -/
noncomputable def timeShare (heap : List Stats) (times : Stats → List (List ℝ)) (l : List (Option Nat)) : Except PyErr (Option ℝ) := do
  let t ← totalTime heap times l
  let o ← optTimes heap l
  pure (if o.sum = 0 then none else some (t / o.sum))

/-! ## What the steps leave alone -/

theorem write_heap_ne (w : World) (f : Stats → Stats) (b : Nat) (h : w.stats ≠ some b) : (w.write f).heap[b]? = w.heap[b]? := by
  unfold World.write
  split
  · rfl
  · next a ha =>
    have : a ≠ b := fun e => h (by rw [ha, e])
    simp [this]

theorem write_stats (w : World) (f : Stats → Stats) : (w.write f).stats = w.stats := by unfold World.write; split <;> simp_all
theorem write_numeric (w : World) (f : Stats → Stats) : (w.write f).numeric = w.numeric := by unfold World.write; split <;> rfl
theorem write_now (w : World) (f : Stats → Stats) : (w.write f).now = w.now := by unfold World.write; split <;> rfl
theorem write_length (w : World) (f : Stats → Stats) : (w.write f).heap.length = w.heap.length := by
  unfold World.write; split <;> simp

/-- `w'` comes from `w` by changes of the simulator's object alone. -/
structure Frame (w w' : World) : Prop where
  stats : w'.stats = w.stats
  numeric : w'.numeric = w.numeric
  length : w'.heap.length = w.heap.length
  other : ∀ b, w.stats ≠ some b → w'.heap[b]? = w.heap[b]?

theorem Frame.refl (w : World) : Frame w w := ⟨rfl, rfl, rfl, fun _ _ => rfl⟩
theorem Frame.trans {a b c : World} (h : Frame a b) (g : Frame b c) : Frame a c :=
  ⟨g.stats.trans h.stats, g.numeric.trans h.numeric, g.length.trans h.length,
    fun x hx => (g.other x (by rw [h.stats]; exact hx)).trans (h.other x hx)⟩
theorem frame_write (w : World) (f : Stats → Stats) : Frame w (w.write f) :=
  ⟨write_stats w f, write_numeric w f, write_length w f, fun b h => write_heap_ne w f b h⟩
theorem frame_wait (w : World) (t : ℝ) : Frame w (w.wait t) := ⟨rfl, rfl, rfl, fun _ _ => rfl⟩
theorem frame_foldl (f : World → Lap → World) (hf : ∀ w l, Frame w (f w l)) : ∀ (ls : List Lap) (w : World), Frame w (ls.foldl f w)
  | [], w => .refl w
  | l :: ls, w => (hf w l).trans (frame_foldl f hf ls (f w l))
theorem frame_costLap (w : World) (l : Lap) : Frame w (costLap w l) :=
  ((frame_wait w l.gap).trans (frame_wait _ l.dur)).trans (frame_write _ _)
theorem frame_gradLap (w : World) (l : Lap) : Frame w (gradLap w l) :=
  ((frame_wait w l.gap).trans (frame_wait _ l.dur)).trans (frame_write _ _)
theorem frame_costPass (w : World) (p : Pass) : Frame w (costPass w p) :=
  ((frame_write w _).trans (frame_foldl _ frame_costLap _ _)).trans (frame_wait _ _)
theorem frame_gradPass (w : World) (p : Pass) : Frame w (gradPass w p) :=
  ((frame_write w _).trans (frame_foldl _ frame_gradLap _ _)).trans (frame_wait _ _)
theorem frame_costPasses : ∀ (ps : List Pass) (w : World), Frame w (costPasses w ps).1
  | [], w => .refl w
  | p :: ps, w => by
    unfold costPasses
    split
    · exact frame_costPass w p
    · exact (frame_costPass w p).trans (frame_costPasses ps _)
theorem frame_call (w : World) (c : Call) : Frame w (call w c).1 := by
  cases c with
  | cost p => exact frame_costPass w p
  | jac p more =>
    unfold call; simp only; split
    · exact frame_costPasses _ _
    · exact frame_gradPass _ _
theorem frame_calls : ∀ (cs : List (ℝ × Call)) (w : World), Frame w (calls w cs).1
  | [], w => .refl w
  | (t, c) :: cs, w => by
    unfold calls
    have h := (frame_wait w t).trans (frame_call (w.wait t) c)
    split
    · next w' e => rw [e] at h; exact h
    · next w' e => rw [e] at h; exact h.trans (frame_calls cs w')
theorem frame_setEnd (w : World) : Frame w (setEnd w) := frame_write _ _
theorem frame_writeState (w : World) (u : Bool) (c : Call) : Frame w (writeState w u c).1 := by
  unfold writeState
  simp only
  split
  · exact (frame_setEnd w).trans (frame_call _ _)
  · exact frame_setEnd w

/-- After the preparation a run changes the simulator's object only; the result refers to it. -/
theorem run_frame (w : World) (r : Run) : Frame (prepare (w.wait r.before)) (runOptimization w r).1 ∧
    ∀ a, (runOptimization w r).2 = some a → a = (prepare (w.wait r.before)).stats := by
  unfold runOptimization
  simp only
  have h := frame_calls r.calls (prepare (w.wait r.before))
  split
  · next w' e => rw [e] at h; exact ⟨h, fun a ha => nomatch ha⟩
  · next w' e =>
    rw [e] at h
    have h1 := h.trans (frame_wait w' r.after)
    have hs : (w'.wait r.after).stats = (prepare (w.wait r.before)).stats := h1.stats
    have h2 := frame_writeState (w'.wait r.after) r.useJac r.last
    split
    · exact ⟨h1, fun a ha => nomatch ha⟩
    · exact ⟨h1, fun a ha => nomatch ha⟩
    · exact ⟨h1.trans (frame_setEnd _), fun a ha => by cases ha; exact hs⟩
    · exact ⟨h1.trans (frame_setEnd _), fun a ha => by cases ha; exact hs⟩
    · exact ⟨(h1.trans (frame_wait _ _)).trans (frame_setEnd _), fun a ha => by cases ha; exact hs⟩
    · split
      · next w2 e2 => rw [e2] at h2; exact ⟨h1.trans h2, fun a ha => nomatch ha⟩
      · next w2 e2 => rw [e2] at h2; exact ⟨h1.trans h2, fun a ha => by cases ha; exact (h1.trans h2).stats⟩
    · split
      · next w2 e2 => rw [e2] at h2; exact ⟨h1.trans h2, fun a ha => nomatch ha⟩
      · next w2 e2 => rw [e2] at h2
                      exact ⟨((h1.trans h2).trans (frame_wait _ _)).trans (frame_setEnd _), fun a ha => by cases ha; exact (h1.trans h2).stats⟩

theorem prepare_heap (w : World) (b : Nat) (h : b < w.heap.length) : (prepare w).heap[b]? = w.heap[b]? := by
  unfold prepare
  split
  · rfl
  · simp [List.getElem?_append_left h]

theorem prepare_stats_ne (w : World) (b : Nat) (h : b < w.heap.length) : (w.stats = none ∨ (prepare w).stats ≠ some b) := by
  unfold prepare
  split
  · next e => exact Or.inl e
  · right; simp; omega

/-- No run changes an object which exists when it starts. -/
theorem run_keeps (w : World) (r : Run) (b : Nat) (hb : b < w.heap.length) : (runOptimization w r).1.heap[b]? = w.heap[b]? := by
  have h := (run_frame w r).1
  have hb' : b < (w.wait r.before).heap.length := hb
  rw [h.other b, prepare_heap _ b hb']
  · rfl
  · rcases prepare_stats_ne _ b hb' with e | e
    · have : (prepare (w.wait r.before)).stats = none := by unfold prepare; rw [e]; exact e
      rw [this]; exact fun h => nomatch h
    · exact e

theorem run_length (w : World) (r : Run) : w.heap.length ≤ (runOptimization w r).1.heap.length := by
  rw [(run_frame w r).1.length]
  unfold prepare
  split
  · exact le_refl _
  · simp only [List.length_append]; exact Nat.le_add_right _ _

theorem session_keeps : ∀ (as : List Act) (w : World) (b : Nat), b < w.heap.length → w.stats ≠ some b →
    (session w as).1.heap[b]? = w.heap[b]?
  | [], w, b, _, _ => rfl
  | .call c :: as, w, b, hb, hs => by
    have h := frame_call w c
    show (session (call w c).1 as).1.heap[b]? = _
    rw [session_keeps as _ b (by rw [h.length]; exact hb) (by rw [h.stats]; exact hs), h.other b hs]
  | .run r :: as, w, b, hb, hs => by
    show (session (runOptimization w r).1 as).1.heap[b]? = _
    rw [session_keeps as _ b (lt_of_lt_of_le hb (run_length w r)), run_keeps w r b hb]
    rw [(run_frame w r).1.stats]
    rcases prepare_stats_ne (w.wait r.before) b hb with e | e
    · have : (prepare (w.wait r.before)).stats = none := by unfold prepare; rw [e]; exact e
      rw [this]; exact fun h => nomatch h
    · exact e

/-! ## C85: the statistics of a finished run -/

theorem session_stats : ∀ (as : List Act) (w : World) (a : Nat), some a ∈ (session w as).2 →
    w.heap.length ≤ a ∧ a < (session w as).1.heap.length
  | [], w, a, h => by simp [session] at h
  | .call c :: as, w, a, h => by
    have := session_stats as (call w c).1 a h
    rw [(frame_call w c).length] at this
    exact this
  | .run r :: as, w, a, h => by
    have hl : ∀ (as : List Act) (w : World), w.heap.length ≤ (session w as).1.heap.length := by
      intro as
      induction as with
      | nil => intro w; exact le_refl _
      | cons x as ih =>
        intro w
        cases x with
        | call c => exact (frame_call w c).length.symm.le.trans (ih _)
        | run r => exact (run_length w r).trans (ih _)
    have h' : some a ∈ (runOptimization w r).2.toList ++ (session (runOptimization w r).1 as).2 := h
    rcases List.mem_append.1 h' with h1 | h1
    · have h2 : (runOptimization w r).2 = some (some a) := by simpa using h1
      have h3 := (run_frame w r).2 _ h2
      have h4 : (w.wait r.before).stats ≠ none := by
        intro e
        rw [prepare, e] at h3
        rw [e] at h3
        exact nomatch h3
      obtain ⟨b, hb⟩ := Option.ne_none_iff_exists'.1 h4
      have h5 : a = w.heap.length := by
        unfold prepare at h3; rw [hb] at h3; simpa [World.wait] using h3
      refine ⟨h5.ge, lt_of_lt_of_le ?_ (hl as (runOptimization w r).1)⟩
      rw [(run_frame w r).1.length, prepare, hb, h5]
      simp [World.wait]
    · have := session_stats as _ a h1
      exact ⟨(run_length w r).trans this.1, this.2⟩

/-- **C85** (partial): once the next optimization has been started, the statistics of a run never change again, whatever is
done afterwards: further runs, evaluations, exceptions.  Missing: evaluations between the end of the run and the start of the
next, see `c85_violated`. -/
theorem c85_final_partial (w w₁ : World) (r r' : Run) (a : Nat) (as : List Act) (h : runOptimization w r = (w₁, some (some a))) :
    (∃ s, w₁.heap[a]? = some s) ∧ (session w₁ (.run r' :: as)).1.heap[a]? = w₁.heap[a]? := by
  have ha : a < w₁.heap.length := by
    have := (session_stats [.run r] w a (by simp [session, h])).2
    simpa [session, h] using this
  refine ⟨⟨_, List.getElem?_eq_getElem ha⟩, ?_⟩
  show (session (runOptimization w₁ r').1 as).1.heap[a]? = _
  rw [session_keeps as _ a (lt_of_lt_of_le ha (run_length w₁ r')), run_keeps w₁ r' a ha]
  rw [(run_frame w₁ r').1.stats]
  rcases prepare_stats_ne (w₁.wait r'.before) a ha with e | e
  · have : (prepare (w₁.wait r'.before)).stats = none := by unfold prepare; rw [e]; exact e
    rw [this]; exact fun h => nomatch h
  · exact e

/-- **C85** (partial, the results of a session): the results of different runs never share a statistics object. -/
theorem c85_distinct : ∀ (as : List Act) (w : World), w.stats.isSome →
    (session w as).2.Nodup ∧ none ∉ (session w as).2
  | [], w, _ => by simp [session]
  | .call c :: as, w, h => c85_distinct as (call w c).1 (by rw [(frame_call w c).stats]; exact h)
  | .run r :: as, w, h => by
    have hp : (prepare (w.wait r.before)).stats = some w.heap.length := by
      obtain ⟨b, hb⟩ := Option.isSome_iff_exists.1 h
      unfold prepare
      have : (w.wait r.before).stats = some b := hb
      rw [this]; rfl
    have hs : (runOptimization w r).1.stats = some w.heap.length := by rw [(run_frame w r).1.stats, hp]
    obtain ⟨i1, i2⟩ := c85_distinct as (runOptimization w r).1 (by rw [hs]; rfl)
    show ((runOptimization w r).2.toList ++ (session (runOptimization w r).1 as).2).Nodup ∧ 
      none ∉ (runOptimization w r).2.toList ++ (session (runOptimization w r).1 as).2
    cases hr : (runOptimization w r).2 with
    | none => simpa using ⟨i1, i2⟩
    | some o =>
      have ho : o = some w.heap.length := ((run_frame w r).2 o hr).trans hp
      subst ho
      refine ⟨List.nodup_append.2 ⟨by simp, i1, ?_⟩, by simpa using i2⟩
      intro x hx y hy e
      simp only [Option.toList_some, List.mem_singleton] at hx
      subst hx; subst e
      have := (session_stats as _ _ hy).1
      rw [(run_frame w r).1.length] at this
      have hb : (w.wait r.before).stats.isSome := h
      obtain ⟨b, hb⟩ := Option.isSome_iff_exists.1 hb
      unfold prepare at this
      rw [hb] at this
      simp [World.wait] at this

/-- A run with one evaluation of one cost function, which takes one second of three. -/
def shortRun : Run :=
  { opt := .leastSquares, useJac := false, before := 1, calls := [(1, .cost { laps := [⟨0, 1⟩], rest := 0 })], ending := .normal,
    after := 1, last := .cost { laps := [⟨0, 1⟩], rest := 0 }, final := 0 }

/-- One evaluation of five seconds. -/
def longCall : Call := .cost { laps := [⟨0, 5⟩], rest := 0 }

/-- **C85** (violated): an evaluation of the simulator after the run changes the statistics stored in its result; more time is
then recorded for the cost function than the run took. -/
theorem c85_violated :
    (session (init true false 0) [.run shortRun]).2 = [some 1] ∧
    timeShare (session (init true false 0) [.run shortRun]).1.heap Stats.cost [some 1] = .ok (some (1 / 3)) ∧
    timeShare (session (init true false 0) [.run shortRun, .call longCall]).1.heap Stats.cost [some 1] = .ok (some 2) := by
  refine ⟨?_, ?_, ?_⟩
  · simp [session, init, shortRun, runOptimization, prepare, World.wait, calls, call, costPass, costLap, World.write, setEnd]
  · norm_num [session, init, shortRun, runOptimization, prepare, World.wait, calls, call, costPass, costLap, World.write, setEnd,
      timeShare, totalTime, optTimes, object, columnTotal, pushLast, bind, Except.bind, pure, Except.pure, List.modify]
  · norm_num [session, init, shortRun, longCall, runOptimization, prepare, World.wait, calls, call, costPass, costLap, World.write, setEnd,
      timeShare, totalTime, optTimes, object, columnTotal, pushLast, bind, Except.bind, pure, Except.pure, List.modify]

/-- `Analyser.opt_times` needs both times of every run: TypeError if the first run without one of them is reached, as for the
statistics of a simulator that never ran an optimization. -/
theorem c85_opt_times_unfinished (heap : List Stats) (a : Nat) (s : Stats) (l : List (Option Nat)) (hs : heap[a]? = some s)
    (h : s.stop = none ∨ s.start = none) :
    optTimes heap (some a :: l) = .error .typeError ∧ optTimes heap (none :: l) = .error .attributeError := by
  refine ⟨?_, rfl⟩
  simp only [optTimes, object, hs, bind, Except.bind]
  rcases h with h | h
  · rw [h]
  · rw [h]
    cases s.stop <;> rfl

example : optTimes (init true false 0).heap [some 0] = .error .typeError :=
  (c85_opt_times_unfinished _ 0 {} [] rfl (.inl rfl)).1

/-- The first call of a simulator that records: its times are found in the object `Simulator.stats`, one row with the time of each
cost function. -/
theorem c85_before_first_run (numeric : Bool) (now : ℝ) (p : Pass) :
    ∃ a s, (call (init true numeric now) (.cost p)).1.stats = some a ∧ (call (init true numeric now) (.cost p)).1.heap[a]? = some s ∧
      s.cost = [p.laps.map Lap.dur] ∧ s.grad = [] := by
  have key : ∀ (ls : List Lap) (w : World) (row : List ℝ), w.stats = some 0 → w.heap[0]? = some { cost := [row] } →
      (ls.foldl costLap w).stats = some 0 ∧ (ls.foldl costLap w).heap[0]? = some { cost := [row ++ ls.map Lap.dur] } := by
    intro ls
    induction ls with
    | nil => intro w row h1 h2; simpa using ⟨h1, h2⟩
    | cons l ls ih =>
      intro w row h1 h2
      obtain ⟨i1, i2⟩ := ih (costLap w l) (row ++ [l.dur]) (by rw [(frame_costLap w l).stats, h1]) (by
        simp [costLap, World.write, World.wait, h1, h2, List.getElem?_modify, pushLast])
      exact ⟨i1, by rw [List.foldl_cons, i2]; simp⟩
  obtain ⟨h1, h2⟩ := key p.laps ((init true numeric now).write fun s => { s with cost := s.cost ++ [[]] }) []
    rfl rfl
  exact ⟨0, _, h1, h2, by simp, rfl⟩

example : ∃ a s, (call (init true false 0) longCall).1.stats = some a ∧ (call (init true false 0) longCall).1.heap[a]? = some s ∧
    s.cost = [[5]] ∧ s.grad = [] := c85_before_first_run false 0 { laps := [⟨0, 5⟩], rest := 0 }

/-- The hypotheses of `c85_final_partial`: the run above followed by itself and by an evaluation. -/
example : (session (runOptimization (init true false 0) shortRun).1 [.run shortRun, .call longCall]).1.heap[1]? =
    (runOptimization (init true false 0) shortRun).1.heap[1]? :=
  (c85_final_partial (init true false 0) _ shortRun shortRun 1 [.call longCall]
    (by simp [init, shortRun, runOptimization, prepare, World.wait, calls, call, costPass, costLap, World.write, setEnd])).2

/-- The hypothesis of `c85_distinct`. -/
example : (session (init true false 0) [.run shortRun, .call longCall, .run shortRun]).2.Nodup :=
  (c85_distinct _ (init true false 0) rfl).1

/-! ## C86: the recorded times -/

/-- The sum of all times recorded in an object. -/
noncomputable def recorded (s : Stats) : ℝ := s.cost.flatten.sum + s.grad.flatten.sum

/-- Time does not run backwards. -/
def Pass.Clocked (p : Pass) : Prop := (∀ l ∈ p.laps, 0 ≤ l.gap ∧ 0 ≤ l.dur) ∧ 0 ≤ p.rest

/-- Time does not run backwards, and a pass which returns has gone through all `n` cost functions. -/
def Pass.Legal (n : Nat) (p : Pass) : Prop := p.Clocked ∧ (p.raises = false → p.laps.length = n)

def Call.Legal (n : Nat) : Call → Prop
  | .cost p => p.Legal n
  | .jac p more => ∀ q ∈ p :: more, q.Legal n

structure Run.Legal (n : Nat) (r : Run) : Prop where
  before : 0 ≤ r.before
  calls : ∀ c ∈ r.calls, 0 ≤ c.1 ∧ c.2.Legal n
  after : 0 ≤ r.after
  last : r.last.Legal n
  final : 0 ≤ r.final

/-- Specification: how many rows of cost times and of gradient times a call should leave. -/
def Call.rows (numeric : Bool) : Call → Nat × Nat
  | .cost _ => (1, 0)
  | .jac _ more => if numeric then (1 + more.length, 0) else (0, 1)

/-- All calls a run makes, with the Jacobian computed after an exceeded wall time. -/
def Run.allCalls (r : Run) : List Call :=
  r.calls.map (·.2) ++ match r.ending with
    | .wallTime => if r.useJac then [r.last] else []
    | _ => []

/-- Specification: the statistics of a run: start and end, non-negative times which add up to at most the time of the run, one entry
for each of the `n` cost functions in each row, and the given numbers of rows. -/
structure Consistent (n k g : Nat) (s : Stats) (b e : ℝ) : Prop where
  start : s.start = some b
  stop : s.stop = some e
  total : recorded s ≤ e - b
  nonneg : ∀ row ∈ s.cost ++ s.grad, ∀ t ∈ row, 0 ≤ t
  width : ∀ row ∈ s.cost ++ s.grad, row.length = n
  costs : s.cost.length = k
  grads : s.grad.length = g

/-- The simulator's object during a run. -/
structure Inv (n k g : Nat) (b : ℝ) (a : Nat) (w : World) (s : Stats) : Prop where
  stats : w.stats = some a
  get : w.heap[a]? = some s
  start : s.start = some b
  total : recorded s ≤ w.now - b
  nonneg : ∀ row ∈ s.cost ++ s.grad, ∀ t ∈ row, 0 ≤ t
  width : ∀ row ∈ s.cost ++ s.grad, row.length = n
  costs : s.cost.length = k
  grads : s.grad.length = g

theorem write_get (w : World) (a : Nat) (s : Stats) (f : Stats → Stats) (h : w.stats = some a) (hs : w.heap[a]? = some s) :
    (w.write f).heap[a]? = some (f s) := by
  unfold World.write
  rw [h]
  simp [hs]

theorem Inv.wait {n k g : Nat} {b : ℝ} {a : Nat} {w : World} {s : Stats} (h : Inv n k g b a w s) (t : ℝ) (ht : 0 ≤ t) :
    Inv n k g b a (w.wait t) s :=
  { h with total := by have := h.total; simp only [World.wait]; linarith }

/-- Running through the functions of a row. -/
theorem costLaps (a : Nat) (s : Stats) (rows : List (List ℝ)) : ∀ (ls : List Lap) (w : World) (row : List ℝ),
    w.stats = some a → w.heap[a]? = some { s with cost := rows ++ [row] } → (∀ l ∈ ls, 0 ≤ l.gap ∧ 0 ≤ l.dur) →
    ∃ row', row'.length = row.length + ls.length ∧ (∀ t ∈ row', t ∈ row ∨ 0 ≤ t) ∧
      (ls.foldl costLap w).heap[a]? = some { s with cost := rows ++ [row'] } ∧
      row'.sum - row.sum ≤ (ls.foldl costLap w).now - w.now
  | [], w, row, h1, h2, _ => ⟨row, rfl, fun t ht => Or.inl ht, h2, by simp⟩
  | l :: ls, w, row, h1, h2, h3 => by
    have g := h3 l (by simp)
    have hw : (costLap w l).stats = some a := by rw [(frame_costLap w l).stats, h1]
    have hn : (costLap w l).now = w.now + l.gap + l.dur := by simp [costLap, write_now, World.wait]
    have hg : (costLap w l).heap[a]? = some { s with cost := rows ++ [row ++ [l.dur]] } := by
      have := write_get ((w.wait l.gap).wait l.dur) a { s with cost := rows ++ [row] }
        (fun s => { s with cost := pushLast s.cost (((w.wait l.gap).wait l.dur).now - (w.wait l.gap).now) }) h1 h2
      unfold costLap
      rw [this]
      simp [pushLast, World.wait]
    obtain ⟨row', r1, r2, r3, r4⟩ := costLaps a s rows ls (costLap w l) (row ++ [l.dur]) hw hg (fun l hl => h3 l (by simp [hl]))
    refine ⟨row', by rw [r1]; simp; omega, fun t ht => ?_, r3, ?_⟩
    · rcases r2 t ht with h | h
      · simp only [List.mem_append, List.mem_singleton] at h
        rcases h with h | h
        · exact Or.inl h
        · right; rw [h]; exact g.2
      · exact Or.inr h
    · simp only [List.foldl_cons] at r4 ⊢
      simp only [List.sum_append, List.sum_cons, List.sum_nil] at r4
      rw [hn] at r4
      linarith [g.1]

theorem gradLaps (a : Nat) (s : Stats) (rows : List (List ℝ)) : ∀ (ls : List Lap) (w : World) (row : List ℝ),
    w.stats = some a → w.heap[a]? = some { s with grad := rows ++ [row] } → (∀ l ∈ ls, 0 ≤ l.gap ∧ 0 ≤ l.dur) →
    ∃ row', row'.length = row.length + ls.length ∧ (∀ t ∈ row', t ∈ row ∨ 0 ≤ t) ∧
      (ls.foldl gradLap w).heap[a]? = some { s with grad := rows ++ [row'] } ∧
      row'.sum - row.sum ≤ (ls.foldl gradLap w).now - w.now
  | [], w, row, h1, h2, _ => ⟨row, rfl, fun t ht => Or.inl ht, h2, by simp⟩
  | l :: ls, w, row, h1, h2, h3 => by
    have g := h3 l (by simp)
    have hw : (gradLap w l).stats = some a := by rw [(frame_gradLap w l).stats, h1]
    have hn : (gradLap w l).now = w.now + l.gap + l.dur := by simp [gradLap, write_now, World.wait]
    have hg : (gradLap w l).heap[a]? = some { s with grad := rows ++ [row ++ [l.dur]] } := by
      have := write_get ((w.wait l.gap).wait l.dur) a { s with grad := rows ++ [row] }
        (fun s => { s with grad := pushLast s.grad (((w.wait l.gap).wait l.dur).now - (w.wait l.gap).now) }) h1 h2
      unfold gradLap
      rw [this]
      simp [pushLast, World.wait]
    obtain ⟨row', r1, r2, r3, r4⟩ := gradLaps a s rows ls (gradLap w l) (row ++ [l.dur]) hw hg (fun l hl => h3 l (by simp [hl]))
    refine ⟨row', by rw [r1]; simp; omega, fun t ht => ?_, r3, ?_⟩
    · rcases r2 t ht with h | h
      · simp only [List.mem_append, List.mem_singleton] at h
        rcases h with h | h
        · exact Or.inl h
        · right; rw [h]; exact g.2
      · exact Or.inr h
    · simp only [List.foldl_cons] at r4 ⊢
      simp only [List.sum_append, List.sum_cons, List.sum_nil] at r4
      rw [hn] at r4
      linarith [g.1]

theorem inv_costPass {n k g : Nat} {b : ℝ} {a : Nat} {w : World} {s : Stats} (h : Inv n k g b a w s) (p : Pass) (hp : p.Legal n)
    (hr : p.raises = false) : ∃ s', Inv n (k + 1) g b a (costPass w p) s' := by
  have h0 := write_get w a s (fun s => { s with cost := s.cost ++ [[]] }) h.stats h.get
  obtain ⟨row, r1, r2, r3, r4⟩ := costLaps a s s.cost p.laps _ [] (by rw [write_stats]; exact h.stats) h0 hp.1.1
  have hl := hp.2 hr
  refine ⟨{ s with cost := s.cost ++ [row] }, ?_, r3, h.start, ?_, ?_, ?_, ?_, h.grads⟩
  · rw [(frame_costPass w p).stats]; exact h.stats
  · have ht := h.total
    have hp2 := hp.1.2
    rw [write_now] at r4
    simp only [recorded, List.flatten_append, List.flatten_cons, List.flatten_nil, List.append_nil, List.sum_append, List.sum_nil] at ht r4 ⊢
    have : (costPass w p).now = (List.foldl costLap (w.write fun s => { s with cost := s.cost ++ [[]] }) p.laps).now + p.rest := rfl
    rw [this]
    linarith
  · intro row' hrow t ht
    simp only [List.mem_append, List.mem_singleton] at hrow
    rcases hrow with (h1 | h1) | h1
    · exact h.nonneg row' (by simp [h1]) t ht
    · subst h1
      rcases r2 t ht with h2 | h2
      · simp at h2
      · exact h2
    · exact h.nonneg row' (by simp [h1]) t ht
  · intro row' hrow
    simp only [List.mem_append, List.mem_singleton] at hrow
    rcases hrow with (h1 | h1) | h1
    · exact h.width row' (by simp [h1])
    · subst h1; rw [r1]; simpa using hl
    · exact h.width row' (by simp [h1])
  · simp [h.costs]

theorem inv_gradPass {n k g : Nat} {b : ℝ} {a : Nat} {w : World} {s : Stats} (h : Inv n k g b a w s) (p : Pass) (hp : p.Legal n)
    (hr : p.raises = false) : ∃ s', Inv n k (g + 1) b a (gradPass w p) s' := by
  have h0 := write_get w a s (fun s => { s with grad := s.grad ++ [[]] }) h.stats h.get
  obtain ⟨row, r1, r2, r3, r4⟩ := gradLaps a s s.grad p.laps _ [] (by rw [write_stats]; exact h.stats) h0 hp.1.1
  have hl := hp.2 hr
  refine ⟨{ s with grad := s.grad ++ [row] }, ?_, r3, h.start, ?_, ?_, ?_, h.costs, ?_⟩
  · rw [(frame_gradPass w p).stats]; exact h.stats
  · have ht := h.total
    have hp2 := hp.1.2
    rw [write_now] at r4
    simp only [recorded, List.flatten_append, List.flatten_cons, List.flatten_nil, List.append_nil, List.sum_append, List.sum_nil] at ht r4 ⊢
    have : (gradPass w p).now = (List.foldl gradLap (w.write fun s => { s with grad := s.grad ++ [[]] }) p.laps).now + p.rest := rfl
    rw [this]
    linarith
  · intro row' hrow t ht
    simp only [List.mem_append, List.mem_singleton] at hrow
    rcases hrow with h1 | h1 | h1
    · exact h.nonneg row' (by simp [h1]) t ht
    · exact h.nonneg row' (by simp [h1]) t ht
    · subst h1
      rcases r2 t ht with h2 | h2
      · simp at h2
      · exact h2
  · intro row' hrow
    simp only [List.mem_append, List.mem_singleton] at hrow
    rcases hrow with h1 | h1 | h1
    · exact h.width row' (by simp [h1])
    · exact h.width row' (by simp [h1])
    · subst h1; rw [r1]; simpa using hl
  · simp [h.grads]

theorem inv_costPasses {n g : Nat} {b : ℝ} {a : Nat} : ∀ (ps : List Pass) {k : Nat} {w : World} {s : Stats}, Inv n k g b a w s →
    (∀ p ∈ ps, p.Legal n) → (costPasses w ps).2 = false → ∃ s', Inv n (k + ps.length) g b a (costPasses w ps).1 s'
  | [], k, w, s, h, _, _ => ⟨s, h⟩
  | p :: ps, k, w, s, h, hl, hr => by
    unfold costPasses at hr ⊢
    split at hr
    · cases hr
    · next hp =>
      rw [if_neg hp]
      obtain ⟨s', h'⟩ := inv_costPass h p (hl p (by simp)) (by simpa using hp)
      obtain ⟨s'', h''⟩ := inv_costPasses ps h' (fun q hq => hl q (by simp [hq])) hr
      refine ⟨s'', ?_⟩
      have : k + (p :: ps).length = k + 1 + ps.length := by simp; omega
      rw [this]; exact h''

theorem inv_call {n k g : Nat} {b : ℝ} {a : Nat} {w : World} {s : Stats} (h : Inv n k g b a w s) (c : Call) (hc : c.Legal n)
    (hr : (call w c).2 = false) : ∃ s', Inv n (k + (c.rows w.numeric).1) (g + (c.rows w.numeric).2) b a (call w c).1 s' := by
  cases c with
  | cost p => exact inv_costPass h p hc hr
  | jac p more =>
    unfold call at hr ⊢
    simp only [Call.rows] at hr ⊢
    cases hn : w.numeric with
    | true =>
      rw [hn] at hr
      simp only [if_true] at hr ⊢
      have := inv_costPasses (p :: more) h hc hr
      simpa [Nat.add_comm] using this
    | false =>
      rw [hn] at hr
      exact inv_gradPass h p (hc p (by simp)) hr

/-- The rows of a list of calls. -/
def rowsOf (numeric : Bool) (cs : List Call) : Nat × Nat :=
  ((cs.map fun c => (c.rows numeric).1).sum, (cs.map fun c => (c.rows numeric).2).sum)

theorem inv_calls {n : Nat} {b : ℝ} {a : Nat} : ∀ (cs : List (ℝ × Call)) {k g : Nat} {w : World} {s : Stats}, Inv n k g b a w s →
    (∀ c ∈ cs, 0 ≤ c.1 ∧ c.2.Legal n) → (calls w cs).2 = false →
    ∃ s', Inv n (k + (rowsOf w.numeric (cs.map (·.2))).1) (g + (rowsOf w.numeric (cs.map (·.2))).2) b a (calls w cs).1 s'
  | [], k, g, w, s, h, _, _ => ⟨s, by simpa [rowsOf, calls] using h⟩
  | (t, c) :: cs, k, g, w, s, h, hl, hr => by
    have h1 := h.wait t (hl (t, c) (by simp)).1
    unfold calls at hr ⊢
    cases e : call (w.wait t) c with
    | mk w' x =>
      rw [e] at hr
      cases x with
      | true => cases hr
      | false =>
        simp only at hr ⊢
        obtain ⟨s', h2⟩ := inv_call h1 c (hl (t, c) (by simp)).2 (by rw [e])
        rw [e] at h2
        have hn : w'.numeric = w.numeric := by
          have := (frame_call (w.wait t) c).numeric
          rw [e] at this; exact this
        obtain ⟨s'', h3⟩ := inv_calls cs h2 (fun c hc => hl c (by simp [hc])) hr
        refine ⟨s'', ?_⟩
        rw [hn] at h3
        have hw : (w.wait t).numeric = w.numeric := rfl
        rw [hw] at h3
        simpa [rowsOf, Nat.add_assoc] using h3

/-- **C86** (partial): with a clock that does not run backwards, the statistics in the result of a run are complete and consistent:
the start is the start of the run, no recorded time is negative, all of them together are at most the duration of the run, each row has
one entry for each cost function, and there is one row for each evaluation.  Missing: the run of a least-squares optimizer which exceeds
the wall time and uses the Jacobian, see `c86_violated_wall_time`. -/
theorem c86_consistent_partial (n : Nat) (w w₁ : World) (r : Run) (hl : r.Legal n) (hw : w.stats.isSome) (o : Option Nat)
    (hr : runOptimization w r = (w₁, some o))
    (hcase : r.opt = .scalar ∨ r.ending = .normal ∨ r.useJac = false) :
    ∃ a s e, o = some a ∧ w₁.heap[a]? = some s ∧
      Consistent n (rowsOf w.numeric r.allCalls).1 (rowsOf w.numeric r.allCalls).2 s (w.now + r.before) e := by
  obtain ⟨a₀, ha₀⟩ := Option.isSome_iff_exists.1 hw
  have hp : prepare (w.wait r.before) =
      ⟨w.heap ++ [{ start := some (w.now + r.before) }], some w.heap.length, w.numeric, w.now + r.before⟩ := by
    unfold prepare
    have : (w.wait r.before).stats = some a₀ := ha₀
    rw [this]; rfl
  have h0 : Inv n 0 0 (w.now + r.before) w.heap.length (prepare (w.wait r.before)) { start := some (w.now + r.before) } := by
    rw [hp]
    exact ⟨rfl, by simp, rfl, by simp [recorded], by simp, by simp, rfl, rfl⟩
  have hnum : (prepare (w.wait r.before)).numeric = w.numeric := by rw [hp]
  have fin : ∀ {k g : Nat} {w' : World} {s : Stats}, Inv n k g (w.now + r.before) w.heap.length w' s → ∃ s', 
      (setEnd w').heap[w.heap.length]? = some s' ∧ Consistent n k g s' (w.now + r.before) w'.now := by
    intro k g w' s h
    refine ⟨{ s with stop := some w'.now }, ?_, h.start, rfl, h.total, h.nonneg, h.width, h.costs, h.grads⟩
    exact write_get w' _ s _ h.stats h.get
  unfold runOptimization at hr
  simp only at hr
  cases e : calls (prepare (w.wait r.before)) r.calls with
  | mk w' x =>
    rw [e] at hr
    cases x with
    | true => cases hr
    | false =>
      simp only at hr
      obtain ⟨s', h1⟩ := inv_calls r.calls h0 hl.calls (by rw [e])
      rw [e, hnum] at h1
      simp only [Nat.zero_add] at h1
      have h2 := h1.wait r.after hl.after
      have hw' : (w'.wait r.after).numeric = w.numeric := by
        have := (frame_calls r.calls (prepare (w.wait r.before))).numeric
        rw [e] at this; rw [← hnum]; exact this
      -- the wall time has been exceeded
      have wall : r.ending = .wallTime → ∀ w₂, writeState (w'.wait r.after) r.useJac r.last = (w₂, false) →
          (r.useJac = false → w₂ = setEnd (w'.wait r.after)) ∧ ∃ s₂, Inv n (rowsOf w.numeric r.allCalls).1 (rowsOf w.numeric r.allCalls).2
            (w.now + r.before) w.heap.length w₂ s₂ := by
        intro he w₂ h3
        have h4 : Inv n (rowsOf w.numeric (r.calls.map (·.2))).1 (rowsOf w.numeric (r.calls.map (·.2))).2 (w.now + r.before) w.heap.length
            (setEnd (w'.wait r.after)) { s' with stop := some (w'.wait r.after).now } :=
          ⟨by rw [(frame_setEnd _).stats]; exact h2.stats, write_get _ _ s' _ h2.stats h2.get, h2.start,
            by unfold setEnd; rw [write_now]; exact h2.total, h2.nonneg, h2.width, h2.costs, h2.grads⟩
        unfold writeState at h3
        simp only at h3
        split at h3
        · next hj =>
          have h5 := inv_call h4 r.last hl.last (by rw [h3])
          rw [h3] at h5
          obtain ⟨s₂, h5⟩ := h5
          have h6 : (setEnd (w'.wait r.after)).numeric = w.numeric := by rw [(frame_setEnd _).numeric]; exact hw'
          rw [h6] at h5
          refine ⟨fun h => ?_, s₂, ?_⟩
          · rw [hj] at h; cases h
          · have : rowsOf w.numeric r.allCalls = ((rowsOf w.numeric (r.calls.map (·.2))).1 + (r.last.rows w.numeric).1,
                (rowsOf w.numeric (r.calls.map (·.2))).2 + (r.last.rows w.numeric).2) := by
              simp [rowsOf, Run.allCalls, he, hj]
            rw [this]; exact h5
        · next hj =>
          simp only [Prod.mk.injEq, and_true] at h3
          refine ⟨fun _ => h3.symm, ?_⟩
          subst h3
          have : r.allCalls = r.calls.map (·.2) := by simp [Run.allCalls, he, hj]
          rw [this]
          exact ⟨_, h4⟩
      have norm : r.ending = .normal → r.allCalls = r.calls.map (·.2) := by
        intro he; simp [Run.allCalls, he]
      split at hr
      · cases hr
      · cases hr
      · next _ _ _ he =>
        simp only [Prod.mk.injEq, Option.some.injEq] at hr
        obtain ⟨rfl, rfl⟩ := hr
        obtain ⟨s₂, h3, h4⟩ := fin h2
        rw [← norm he] at h4
        exact ⟨_, s₂, _, h2.stats, h3, h4⟩
      · next _ _ _ he =>
        simp only [Prod.mk.injEq, Option.some.injEq] at hr
        obtain ⟨rfl, rfl⟩ := hr
        obtain ⟨s₂, h3, h4⟩ := fin h2
        rw [← norm he] at h4
        exact ⟨_, s₂, _, h2.stats, h3, h4⟩
      · next _ _ _ he =>
        simp only [Prod.mk.injEq, Option.some.injEq] at hr
        obtain ⟨rfl, rfl⟩ := hr
        obtain ⟨s₂, h3, h4⟩ := fin (h2.wait r.final hl.final)
        rw [← norm he] at h4
        exact ⟨_, s₂, _, h2.stats, h3, h4⟩
      · next _ _ ho he =>
        have hj : r.useJac = false := by
          rcases hcase with h | h | h
          · rw [ho] at h; cases h
          · rw [he] at h; cases h
          · exact h
        cases e2 : writeState (w'.wait r.after) r.useJac r.last with
        | mk w₂ x =>
          rw [e2] at hr
          cases x with
          | true => cases hr
          | false =>
            simp only [Prod.mk.injEq, Option.some.injEq] at hr
            obtain ⟨rfl, rfl⟩ := hr
            have h3 := (wall he w₂ e2).1 hj
            have h5 : r.allCalls = r.calls.map (·.2) := by simp [Run.allCalls, he, hj]
            obtain ⟨s₂, h6, h4⟩ := fin h2
            rw [← h5] at h4
            rw [h3]
            exact ⟨_, s₂, _, by rw [(frame_setEnd _).stats]; exact h2.stats, h6, h4⟩
      · next _ _ ho he =>
        cases e2 : writeState (w'.wait r.after) r.useJac r.last with
        | mk w₂ x =>
          rw [e2] at hr
          cases x with
          | true => cases hr
          | false =>
            simp only [Prod.mk.injEq, Option.some.injEq] at hr
            obtain ⟨rfl, rfl⟩ := hr
            obtain ⟨s₂, h3⟩ := (wall he w₂ e2).2
            obtain ⟨s₃, h4, h5⟩ := fin (h3.wait r.final hl.final)
            exact ⟨_, s₃, _, h3.stats, h4, h5⟩

theorem range_getD (r : List ℝ) : ((List.range r.length).map fun j => r.getD j 0) = r := by
  apply List.ext_getElem (by simp)
  intro i h1 h2
  simp [h2]

theorem columns_flatten (n : Nat) : ∀ times : List (List ℝ), (∀ r ∈ times, r.length = n) →
    ((List.range n).map fun j => (times.map fun r => r.getD j 0).sum).sum = times.flatten.sum
  | [], _ => by simp
  | r :: times, h => by
    have ih := columns_flatten n times (fun r hr => h r (by simp [hr]))
    have hr : r.length = n := h r (by simp)
    simp only [List.map_cons, List.sum_cons, List.flatten_cons, List.sum_append]
    rw [List.sum_map_add, ih, ← hr, range_getD]

theorem columnTotal_ok (n : Nat) (times : List (List ℝ)) (h : ∀ r ∈ times, r.length = n) : columnTotal times = .ok times.flatten.sum := by
  unfold columnTotal
  cases times with
  | nil => simp
  | cons r times =>
    have hr : r.length = n := h r (by simp)
    have hh : ((r :: times).headD []).length = n := by simpa using hr
    rw [if_pos (by rw [hh]; exact h), hh, columns_flatten n _ h]

/-- Specification: the statistics at address `a` are those of a run between `b` and `e`. -/
def Recorded (n : Nat) (heap : List Stats) (o : Option Nat) (b e : ℝ) : Prop :=
  ∃ a s k g, o = some a ∧ heap[a]? = some s ∧ Consistent n k g s b e

theorem flatten_nonneg (l : List (List ℝ)) (h : ∀ row ∈ l, ∀ t ∈ row, 0 ≤ t) : 0 ≤ l.flatten.sum := by
  apply List.sum_nonneg
  intro t ht
  obtain ⟨row, h1, h2⟩ := List.mem_flatten.1 ht
  exact h row h1 t h2

theorem totals (n : Nat) (heap : List Stats) : ∀ l : List (Option Nat), (∀ o ∈ l, ∃ b e, Recorded n heap o b e) →
    ∃ tc tg os, totalTime heap Stats.cost l = .ok tc ∧ totalTime heap Stats.grad l = .ok tg ∧ optTimes heap l = .ok os ∧
      0 ≤ tc ∧ 0 ≤ tg ∧ tc + tg ≤ os.sum
  | [], _ => ⟨0, 0, [], rfl, rfl, rfl, le_refl _, le_refl _, by simp⟩
  | o :: l, h => by
    obtain ⟨tc, tg, os, h1, h2, h3, h4, h5, h6⟩ := totals n heap l (fun o ho => h o (by simp [ho]))
    obtain ⟨b, e, a, s, k, g, ho, ha, hs⟩ := h o (by simp)
    subst ho
    have hc := columnTotal_ok n s.cost (fun r hr => hs.width r (by simp [hr]))
    have hg := columnTotal_ok n s.grad (fun r hr => hs.width r (by simp [hr]))
    refine ⟨s.cost.flatten.sum + tc, s.grad.flatten.sum + tg, (e - b) :: os, ?_, ?_, ?_, ?_, ?_, ?_⟩
    · simp [totalTime, object, ha, hc, h1, bind, Except.bind, pure, Except.pure]
    · simp [totalTime, object, ha, hg, h2, bind, Except.bind, pure, Except.pure]
    · simp [optTimes, object, ha, hs.start, hs.stop, h3, bind, Except.bind, pure, Except.pure]
    · exact add_nonneg (flatten_nonneg _ fun r hr => hs.nonneg r (by simp [hr])) h4
    · exact add_nonneg (flatten_nonneg _ fun r hr => hs.nonneg r (by simp [hr])) h5
    · have := hs.total
      unfold recorded at this
      simp only [List.sum_cons]
      linarith

theorem runs_keep : ∀ (rs : List Run) (w : World) (b : Nat), b < w.heap.length →
    (session w (rs.map .run)).1.heap[b]? = w.heap[b]?
  | [], w, b, _ => rfl
  | r :: rs, w, b, hb => by
    show (session (runOptimization w r).1 (rs.map .run)).1.heap[b]? = _
    rw [runs_keep rs _ b (lt_of_lt_of_le hb (run_length w r)), run_keeps w r b hb]

theorem runs_recorded (n : Nat) : ∀ (rs : List Run) (w : World), w.stats.isSome → (∀ r ∈ rs, r.Legal n) →
    (∀ r ∈ rs, r.opt = .scalar ∨ r.ending = .normal ∨ r.useJac = false) →
    ∀ o ∈ (session w (rs.map .run)).2, ∃ b e, Recorded n (session w (rs.map .run)).1.heap o b e
  | [], w, _, _, _, o, ho => by simp [session] at ho
  | r :: rs, w, hw, hl, hc, o, ho => by
    have hs : (runOptimization w r).1.stats.isSome := by
      rw [(run_frame w r).1.stats]
      obtain ⟨b, hb⟩ := Option.isSome_iff_exists.1 hw
      unfold prepare
      have : (w.wait r.before).stats = some b := hb
      rw [this]; rfl
    have ho' : o ∈ (runOptimization w r).2.toList ++ (session (runOptimization w r).1 (rs.map .run)).2 := ho
    rcases List.mem_append.1 ho' with h1 | h1
    · have h2 : (runOptimization w r).2 = some o := by simpa using h1
      obtain ⟨a, s, e, h3, h4, h5⟩ := c86_consistent_partial n w _ r (hl r (by simp)) hw o (Prod.ext rfl h2) (hc r (by simp))
      refine ⟨_, e, a, s, _, _, h3, ?_, h5⟩
      show (session (runOptimization w r).1 (rs.map .run)).1.heap[a]? = _
      rw [runs_keep rs _ a, h4]
      exact (List.getElem?_eq_some_iff.1 h4).1
    · exact runs_recorded n rs _ hs (fun r hr => hl r (by simp [hr])) (fun r hr => hc r (by simp [hr])) o h1

/-- **C86** (partial, the analyser): for any sequence of runs the analyser computes both time shares without an exception; they are not
negative and together at most one (`nan` when no time has passed at all).  Missing: as for `c86_consistent_partial`, and evaluations of
the simulator after a run (C85). -/
theorem c86_shares_partial (n : Nat) (w : World) (rs : List Run) (hw : w.stats.isSome) (hl : ∀ r ∈ rs, r.Legal n)
    (hc : ∀ r ∈ rs, r.opt = .scalar ∨ r.ending = .normal ∨ r.useJac = false) :
    ∃ x y, timeShare (session w (rs.map .run)).1.heap Stats.cost (session w (rs.map .run)).2 = .ok x ∧
      timeShare (session w (rs.map .run)).1.heap Stats.grad (session w (rs.map .run)).2 = .ok y ∧
      ((x = none ∧ y = none) ∨ ∃ p q, x = some p ∧ y = some q ∧ 0 ≤ p ∧ 0 ≤ q ∧ p + q ≤ 1) := by
  obtain ⟨tc, tg, os, h1, h2, h3, h4, h5, h6⟩ := totals n _ _ (runs_recorded n rs w hw hl hc)
  refine ⟨if os.sum = 0 then none else some (tc / os.sum), if os.sum = 0 then none else some (tg / os.sum),
    by simp only [timeShare, h1, h3, bind, Except.bind, pure, Except.pure],
    by simp only [timeShare, h2, h3, bind, Except.bind, pure, Except.pure], ?_⟩
  by_cases h0 : os.sum = 0
  · left; simp [h0]
  · right
    have hpos : 0 < os.sum := lt_of_le_of_ne (by linarith) (Ne.symm h0)
    refine ⟨tc / os.sum, tg / os.sum, by rw [if_neg h0], by rw [if_neg h0], div_nonneg h4 hpos.le, div_nonneg h5 hpos.le, ?_⟩
    rw [← add_div]
    exact (div_le_one hpos).2 h6

/-- The analyser's exceptions: without recording there are no statistics. -/
theorem c86_not_recorded (heap : List Stats) (times : Stats → List (List ℝ)) (l : List (Option Nat)) :
    timeShare heap times (none :: l) = .error .attributeError := by
  simp [timeShare, totalTime, object, bind, Except.bind]

/-- A run which exceeds the wall time after one evaluation; the Jacobian is computed for the result. -/
def wallRun : Run :=
  { opt := .leastSquares, useJac := true, before := 0, calls := [(0, .cost { laps := [⟨0, 1⟩], rest := 0 })], ending := .wallTime,
    after := 1, last := .jac { laps := [⟨0, 6⟩], rest := 0 } [], final := 0 }

/-- **C86** (violated): `write_state_to_result` takes the end time before it computes the Jacobian of the result, whose duration is
recorded: the gradient is charged with three times the duration of the run. -/
theorem c86_violated_wall_time :
    (session (init true false 0) [.run wallRun]).2 = [some 1] ∧
    timeShare (session (init true false 0) [.run wallRun]).1.heap Stats.grad [some 1] = .ok (some 3) := by
  constructor
  · simp [session, init, wallRun, runOptimization, prepare, World.wait, calls, call, costPass, costLap, gradPass, gradLap, World.write,
      setEnd, writeState]
  · norm_num [session, init, wallRun, runOptimization, prepare, World.wait, calls, call, costPass, costLap, gradPass, gradLap, World.write,
      setEnd, writeState, timeShare, totalTime, optTimes, object, columnTotal, pushLast, bind, Except.bind, pure, Except.pure, List.modify]

/-- The same run with a scalar optimizer and a numeric Jacobian of three passes. -/
def numericRun : Run :=
  { opt := .scalar, useJac := true, before := 0,
    calls := [(0, .jac { laps := [⟨0, 1⟩], rest := 0 } [{ laps := [⟨0, 1⟩], rest := 0 }, { laps := [⟨0, 2⟩], rest := 0 }])],
    ending := .normal, after := 0, last := .cost ⟨[], 0, false⟩, final := 0 }

/-- **C86** (violated): with `numeric_jacobian` the time of the gradients is recorded as time of the cost functions: a run which does
nothing but compute a gradient has a gradient share of zero and a cost share of one. -/
theorem c86_violated_numeric :
    timeShare (session (init true true 0) [.run numericRun]).1.heap Stats.grad [some 1] = .ok (some 0) ∧
    timeShare (session (init true true 0) [.run numericRun]).1.heap Stats.cost [some 1] = .ok (some 1) := by
  constructor <;>
  norm_num [session, init, numericRun, runOptimization, prepare, World.wait, calls, call, costPass, costPasses, costLap, World.write,
      setEnd, timeShare, totalTime, optTimes, object, columnTotal, pushLast, bind, Except.bind, pure, Except.pure, List.modify]

theorem shortRun_legal : shortRun.Legal 1 := by
  constructor <;> norm_num [shortRun, Call.Legal, Pass.Legal, Pass.Clocked]

/-- The hypotheses of `c86_consistent_partial` and `c86_shares_partial`. -/
example : ∃ a s e, (some 1 : Option Nat) = some a ∧ (runOptimization (init true false 0) shortRun).1.heap[a]? = some s ∧
    Consistent 1 1 0 s (0 + 1) e :=
  c86_consistent_partial 1 (init true false 0) _ shortRun shortRun_legal rfl (some 1)
    (by simp [init, shortRun, runOptimization, prepare, World.wait, calls, call, costPass, costLap, World.write, setEnd])
    (Or.inr (Or.inl rfl))

example : ∃ x y, timeShare (session (init true false 0) ([shortRun, shortRun].map .run)).1.heap Stats.cost
      (session (init true false 0) ([shortRun, shortRun].map .run)).2 = .ok x ∧
    timeShare (session (init true false 0) ([shortRun, shortRun].map .run)).1.heap Stats.grad
      (session (init true false 0) ([shortRun, shortRun].map .run)).2 = .ok y ∧
    ((x = none ∧ y = none) ∨ ∃ p q, x = some p ∧ y = some q ∧ 0 ≤ p ∧ 0 ≤ q ∧ p + q ≤ 1) :=
  c86_shares_partial 1 (init true false 0) [shortRun, shortRun] rfl (by simp [shortRun_legal]) (by simp [shortRun])

end Verif.Data.Timing
