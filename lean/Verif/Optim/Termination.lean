import Verif.Py
import Mathlib.Data.Rat.Defs
import Mathlib.Tactic.NormNum

/-!
# C62: the termination conditions (optimize.py:92-99, 157-169, 810-833)

Dictionaries are objects in a heap, because `Optimizer.__init__` stores the module's dictionary itself.  Address 0 is the
dictionary `default_termination_conditions`.
-/

namespace Verif.Optim
open Verif

/-- A dictionary from keys to numbers. -/
abbrev Dict := String → Option ℚ

/-- `d.update(**e)`. -/
def Dict.update (d e : Dict) : Dict := fun k => (e k).orElse fun _ => d k

/-- `d[key] = value`. -/
def Dict.set (d : Dict) (key : String) (x : ℚ) : Dict := fun k => if k = key then some x else d k

/-- `default_termination_conditions`, optimize.py:92-99. -/
def libraryDefaults : Dict := fun k =>
  if k = "min_gradient_norm" then some (1 / 10 ^ 7)
  else if k = "min_cost_gain" then some (1 / 10 ^ 7)
  else if k = "max_wall_time" then some 600
  else if k = "max_cost_func_calls" then some (10 ^ 6)
  else if k = "max_iterations" then some 10000
  else if k = "min_amplitude_change" then some (1 / 10 ^ 8)
  else none

/-- The dictionaries, and for each optimizer constructed so far the address of its `termination_conditions`. -/
structure World where
  dicts : List Dict
  optimizers : List Nat

/-- After importing the module. -/
def World.start : World := { dicts := [libraryDefaults], optimizers := [] }

/-- Reading a dictionary. -/
def World.dict (w : World) (a : Nat) : Dict := w.dicts.getD a fun _ => none

/-- `default_termination_conditions` as it is now. -/
def World.defaults (w : World) : Dict := w.dict 0

/-- `optimizer.termination_conditions` of the i-th optimizer. -/
def World.conditions (w : World) (i : Nat) : Option Dict := (w.optimizers[i]?).map w.dict

/-- What a user does. -/
inductive Action where
  /-- `LeastSquaresOptimizer(...)` or `ScalarMinimizingOptimizer(...)` with this `termination_cond`, which go to
  `Optimizer.__init__`, optimize.py:167-169, 400-406, 491-498 -/
  | construct (cond : Option Dict)
  /-- `SimulatedAnnealing(...)`, optimize.py:825-833: a deep copy of the defaults with a long `max_wall_time` is passed on -/
  | constructAnnealer
  /-- `optimizer_i.termination_conditions[key] = x` -/
  | configure (i : Nat) (key : String) (x : ℚ)

/-- `Optimizer.__init__`, optimize.py:167-169: the attribute is the module's dictionary, which is then updated. -/
def World.init (w : World) (cond : Option Dict) : World :=
  let w := { w with optimizers := w.optimizers ++ [0] }
  match cond with
  | none => w
  | some c => { w with dicts := w.dicts.set 0 ((w.dict 0).update c) }

/-- The effect of an action. -/
def World.step (w : World) : Action → World
  | .construct cond => w.init cond
  | .constructAnnealer => w.init (some (w.defaults.set "max_wall_time" (10 ^ 8)))
  | .configure i key x =>
    match w.optimizers[i]? with
    | none => w
    | some a => { w with dicts := w.dicts.set a ((w.dict a).set key x) }

/-- A sequence of actions. -/
def World.run (w : World) (l : List Action) : World := l.foldl World.step w

/-! ## Property -/

/-- Specification of C62 for one action: the library defaults and the conditions of every optimizer that the action does not
configure stay what they were. -/
def Independent (w : World) (a : Action) : Prop :=
  (w.step a).defaults = w.defaults ∧
    ∀ i, i < w.optimizers.length → (∀ key x, a ≠ .configure i key x) → (w.step a).conditions i = w.conditions i

/-- **C62** (partial): constructing an optimizer without `termination_cond` is independent, in every state.
Missing: every other action, see `c62_violated` and `c62_shared`. -/
theorem c62_independent_partial (w : World) : Independent w (.construct none) := by
  refine ⟨rfl, fun i hi _ => ?_⟩
  simp only [World.conditions, World.step, World.init]
  rw [List.getElem?_append_left hi]
  rfl

theorem dict_set (w : World) (d : Dict) (h : 0 < w.dicts.length) (o : List Nat) :
    World.dict { dicts := w.dicts.set 0 d, optimizers := o } 0 = d := by
  match hw : w.dicts, h with
  | x :: l, _ => simp [World.dict]

/-- All optimizers use the dictionary of the library. -/
def Shared (w : World) : Prop := 0 < w.dicts.length ∧ ∀ a ∈ w.optimizers, a = 0

theorem shared_step (w : World) (a : Action) (h : Shared w) : Shared (w.step a) := by
  obtain ⟨h1, h2⟩ := h
  have hi : ∀ c, Shared (w.init c) := by
    intro c
    cases c <;> exact ⟨by simpa [World.init] using h1, by simpa [World.init, or_imp, forall_and] using h2⟩
  cases a with
  | construct c => exact hi c
  | constructAnnealer => exact hi _
  | configure i key x =>
    simp only [World.step]
    split
    · exact ⟨h1, h2⟩
    · exact ⟨by simpa using h1, h2⟩

theorem shared_run : ∀ (l : List Action) (w : World), Shared w → Shared (w.run l)
  | [], _, h => h
  | a :: l, w, h => shared_run l (w.step a) (shared_step w a h)

/-- What really happens: after any sequence of actions every optimizer has the same conditions, and they are also what the library
now uses as defaults. -/
theorem c62_shared (l : List Action) (i : Nat) (d : Dict) (h : (World.start.run l).conditions i = some d) :
    d = (World.start.run l).defaults := by
  have hs := shared_run l World.start ⟨by simp [World.start], by simp [World.start]⟩
  unfold World.conditions at h
  obtain ⟨a, ha, rfl⟩ := Option.map_eq_some_iff.1 h
  rw [hs.2 a (List.mem_of_getElem? ha)]
  rfl

/-- The last optimizer that was constructed with a value for a key decides about this key for all of them. -/
theorem c62_last_wins (l : List Action) (c : Dict) (key : String) (x : ℚ) (hx : c key = some x) (i : Nat) (d : Dict)
    (h : (World.start.run (l ++ [.construct (some c)])).conditions i = some d) : d key = some x := by
  rw [c62_shared _ i d h]
  have hs := shared_run l World.start ⟨by simp [World.start], by simp [World.start]⟩
  simp only [World.run, List.foldl_append, List.foldl_cons, List.foldl_nil, World.step, World.init, World.defaults]
  erw [dict_set _ _ hs.1]
  simp [Dict.update, hx]

/-- **C62** fails for every explicit condition that differs from the present default, in every reachable state: the library
defaults change, and so do the conditions of every optimizer constructed before. -/
theorem c62_violated (l : List Action) (c : Dict) (key : String) (x : ℚ) (hx : c key = some x)
    (hd : (World.start.run l).defaults key ≠ some x) :
    ¬ Independent (World.start.run l) (.construct (some c)) ∧
      ∀ i, i < (World.start.run l).optimizers.length →
        ((World.start.run l).step (.construct (some c))).conditions i ≠ (World.start.run l).conditions i := by
  have hs := shared_run l World.start ⟨by simp [World.start], by simp [World.start]⟩
  have hnew : ((World.start.run l).step (.construct (some c))).defaults key = some x := by
    simp only [World.step, World.init, World.defaults]
    erw [dict_set _ _ hs.1]
    simp [Dict.update, hx]
  refine ⟨fun h => hd (by rw [← h.1, hnew]), fun i hi h => ?_⟩
  have h1 : (World.start.run l).conditions i = some (World.start.run l).defaults := by
    unfold World.conditions
    rw [List.getElem?_eq_getElem hi, Option.map_some, hs.2 _ (List.getElem_mem hi)]
    rfl
  have h4 : World.start.run (l ++ [Action.construct (some c)]) = (World.start.run l).step (.construct (some c)) := by
    simp [World.run]
  have h5 := c62_last_wins l c key x hx i _ (h4 ▸ h.trans h1)
  exact hd h5

/-- The simulated annealer removes the time limit of every other optimizer. -/
theorem c62_violated_annealer (l : List Action) (i : Nat) (d : Dict)
    (h : (World.start.run (l ++ [.constructAnnealer])).conditions i = some d) : d "max_wall_time" = some (10 ^ 8) := by
  rw [c62_shared _ i d h]
  have hs := shared_run l World.start ⟨by simp [World.start], by simp [World.start]⟩
  simp only [World.run, List.foldl_append, List.foldl_cons, List.foldl_nil, World.step, World.init, World.defaults]
  erw [dict_set _ _ hs.1]
  simp [Dict.update, Dict.set]

/-- **C62** (part) As long as nobody passes or sets conditions, every optimizer uses the values documented in optimize.py:92-99, and a
key that is not among them is not set. -/
theorem c62_values_partial (l : List Action) (hl : ∀ a ∈ l, a = .construct none) (i : Nat) (d : Dict)
    (h : (World.start.run l).conditions i = some d) :
    d "min_gradient_norm" = some (1 / 10000000) ∧ d "min_cost_gain" = some (1 / 10000000) ∧ d "max_wall_time" = some 600 ∧
      d "max_cost_func_calls" = some 1000000 ∧ d "max_iterations" = some 10000 ∧ d "min_amplitude_change" = some (1 / 100000000) ∧
      ∀ key ∉ ["min_gradient_norm", "min_cost_gain", "max_wall_time", "max_cost_func_calls", "max_iterations", "min_amplitude_change"],
        d key = none := by
  have key : ∀ (l : List Action) (w : World), (∀ a ∈ l, a = .construct none) → w.dicts = [libraryDefaults] →
      (w.run l).dicts = [libraryDefaults] := by
    intro l
    induction l with
    | nil => intro w _ hw; exact hw
    | cons a l ih =>
      intro w hl hw
      have ha := hl a (by simp)
      subst ha
      exact ih _ (fun a ha => hl a (by simp [ha])) hw
  have hd : d = libraryDefaults := by
    rw [c62_shared l i d h]
    unfold World.defaults World.dict
    rw [key l World.start hl rfl]
    rfl
  subst hd
  refine ⟨?_, ?_, ?_, ?_, ?_, ?_, fun k hk => ?_⟩
  · simp [libraryDefaults]; norm_num
  · simp [libraryDefaults]; norm_num
  · simp [libraryDefaults]
  · simp [libraryDefaults]; norm_num
  · simp [libraryDefaults]
  · simp [libraryDefaults]; norm_num
  · simp only [List.mem_cons, List.not_mem_nil, or_false, not_or] at hk
    simp [libraryDefaults, hk]

example : ∃ d, (World.start.run [.construct none, .construct none]).conditions 1 = some d ∧ d "max_wall_time" = some 600 :=
  ⟨_, rfl, (c62_values_partial [.construct none, .construct none] (by simp) 1 _ rfl).2.2.1⟩

/-- The first optimizer has a limit of 600 seconds until the second is constructed with a limit of one second. -/
example : ((World.start.run [.construct none]).conditions 0).map (· "max_wall_time") = some (some 600) ∧
    ((World.start.run [.construct none, .construct (some fun k => if k = "max_wall_time" then some 1 else none)]).conditions 0).map
      (· "max_wall_time") = some (some 1) := by
  constructor
  · simp [World.run, World.start, World.step, World.init, World.conditions, World.dict, libraryDefaults]
  · simp [World.run, World.start, World.step, World.init, World.conditions, World.dict, Dict.update]

end Verif.Optim
