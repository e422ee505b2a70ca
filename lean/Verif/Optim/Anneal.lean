import Verif.Py
import Mathlib.Algebra.Order.Floor.Ring
import Mathlib.Data.List.GetD
import Mathlib.Data.Real.Archimedean
import Mathlib.Tactic.Linarith
import Mathlib.Tactic.NormNum

/-!
# C65: the moves of the annealer (optimize.py:715-752)

The arrays have a common shape; they are modelled by the list of their entries.  The numbers of an array of integers are real
numbers which happen to be integers; storing into such an array truncates.  The random numbers are arguments.
-/

namespace Verif.Optim.Anneal
open Verif

/-- The data type of the array `state`. -/
inductive Dtype where
  | int
  | float
  deriving DecidableEq

/-- Conversion to an integer as in an assignment into an array of integers: towards zero. -/
noncomputable def trunc (x : ℝ) : ℤ := if 0 ≤ x then ⌊x⌋ else ⌈x⌉

/-- The value an array element holds after assigning `x` to it. -/
noncomputable def store : Dtype → ℝ → ℝ
  | .int, x => trunc x
  | .float, x => x

/-- `self.step_size`: an `int`, or anything else (float, bool, numpy integer, ...). -/
inductive StepSize where
  | int (n : ℤ)
  | other

/-- One entry of `move`, optimize.py:738-749: `x` the pulse, `r` the random step, `m` the mask value. The masks are computed
before anything is assigned. -/
noncomputable def entry (d : Dtype) (ratio lo hi x : ℝ) (r : ℤ) (m : ℝ) : ℝ :=
  let r : ℤ := if ratio < m then 0 else r
  let new := x + r
  let below := new < lo
  let above := hi < new
  open Classical in
  let new := if below then store d lo else new
  open Classical in
  if above then store d hi else new

/-- `PulseAnnealer.move`, optimize.py:715-752.  Each element is given with its bounds and random numbers. `np.random.randint`
rejects an empty range (negative step sizes). -/
noncomputable def move (d : Dtype) (s : StepSize) (ratio : ℝ) (rows : List (ℝ × ℝ × ℝ × ℤ × ℝ)) : Except PyErr (List ℝ) :=
  match s with
  | .other => .error .valueError
  | .int n =>
    if n = 0 then .error .valueError
    else if n + 1 ≤ -1 * n then .error .valueError
    else .ok (rows.map fun (lo, hi, x, r, m) => entry d ratio lo hi x r m)

/-! ## One entry -/

theorem trunc_int (z : ℤ) : trunc z = z := by unfold trunc; split <;> simp

/-- The bounds can be represented in the array. -/
def Representable (d : Dtype) (x : ℝ) : Prop := store d x = x

theorem representable_float (x : ℝ) : Representable .float x := rfl
theorem representable_int (z : ℤ) : Representable .int z := by simp [Representable, store, trunc_int]

theorem entry_spec (d : Dtype) (ratio lo hi x : ℝ) (r : ℤ) (m : ℝ) (n : ℤ) (h1 : lo ≤ x) (h2 : x ≤ hi) (hr1 : -n ≤ r) (hr2 : r ≤ n)
    (hlo : Representable d lo) (hhi : Representable d hi) :
    lo ≤ entry d ratio lo hi x r m ∧ entry d ratio lo hi x r m ≤ hi ∧ |entry d ratio lo hi x r m - x| ≤ n ∧
      (ratio < m → entry d ratio lo hi x r m = x) := by
  have hn : (0 : ℝ) ≤ n := by have : (0 : ℤ) ≤ n := by omega
                              exact_mod_cast this
  have r1 : -(n : ℝ) ≤ r := by exact_mod_cast hr1
  have r2 : (r : ℝ) ≤ n := by exact_mod_cast hr2
  unfold entry
  by_cases hm : ratio < m
  · simp only [hm, if_true, Int.cast_zero, add_zero, not_lt.2 h1, not_lt.2 h2, if_false, sub_self, abs_zero]
    exact ⟨h1, h2, hn, fun _ => trivial⟩
  · simp only [hm, if_false, Representable] at *
    rw [hlo, hhi]
    split
    · next ha =>
      refine ⟨h1.trans h2, le_refl _, ?_, fun h => absurd h hm⟩
      rw [abs_le]; constructor <;> linarith
    · next ha =>
      split
      · next hb =>
        refine ⟨le_refl _, h1.trans h2, ?_, fun h => absurd h hm⟩
        rw [abs_le]; constructor <;> linarith
      · next hb =>
        refine ⟨not_lt.1 hb, not_lt.1 ha, ?_, fun h => absurd h hm⟩
        rw [abs_le]; constructor <;> linarith

/-! ## Sequences of moves -/

/-- What the annealer does next: it draws random numbers and moves, or it goes back to an earlier state (`simanneal` restores the
previous or the best state). -/
inductive Act where
  | move (steps : List ℤ) (mask : List ℝ)
  | restore (k : Nat)

/-- The contract of the random generators: as many numbers as entries, the steps within the step size. -/
def Act.Legal (n : ℤ) (len : Nat) : Act → Prop
  | .move steps mask => steps.length = len ∧ mask.length = len ∧ ∀ r ∈ steps, -n ≤ r ∧ r ≤ n
  | .restore _ => True

/-- The rows `move` works on. -/
def rows (lo hi x : List ℝ) (steps : List ℤ) (mask : List ℝ) : List (ℝ × ℝ × ℝ × ℤ × ℝ) :=
  lo.zip (hi.zip (x.zip (steps.zip mask)))

/-- All states so far, the present one first. -/
noncomputable def step (d : Dtype) (s : StepSize) (ratio : ℝ) (lo hi : List ℝ) (states : List (List ℝ)) : Act → Except PyErr (List (List ℝ))
  | .move steps mask => match move d s ratio (rows lo hi (states.headD []) steps mask) with
    | .error e => .error e
    | .ok x => .ok (x :: states)
  | .restore k => .ok (states.getD k (states.headD []) :: states)

@[inherit_doc step]
noncomputable def run (d : Dtype) (s : StepSize) (ratio : ℝ) (lo hi : List ℝ) : List (List ℝ) → List Act → Except PyErr (List (List ℝ))
  | states, [] => .ok states
  | states, a :: as => match step d s ratio lo hi states a with
    | .error e => .error e
    | .ok states => run d s ratio lo hi states as

/-- Specification: the entries lie within the bounds. -/
def Within (lo hi x : List ℝ) : Prop :=
  lo.length = x.length ∧ hi.length = x.length ∧ ∀ i, i < x.length → lo.getD i 0 ≤ x.getD i 0 ∧ x.getD i 0 ≤ hi.getD i 0

/-- **C65** (one move, partial): within representable bounds the move stays within them, changes no entry by more than the step
size, and leaves the entries alone which the mask excludes.  Missing: an array of integers with bounds that are not integers,
see `c65_violated`. -/
theorem c65_move_partial (d : Dtype) (n : ℤ) (ratio : ℝ) (lo hi x : List ℝ) (steps : List ℤ) (mask x' : List ℝ) (hx : Within lo hi x)
    (hl : (Act.move steps mask).Legal n x.length) (hlo : ∀ b ∈ lo, Representable d b) (hhi : ∀ b ∈ hi, Representable d b)
    (h : move d (.int n) ratio (rows lo hi x steps mask) = .ok x') :
    Within lo hi x' ∧ x'.length = x.length ∧
      ∀ i, i < x.length → |x'.getD i 0 - x.getD i 0| ≤ n ∧ (ratio < mask.getD i 0 → x'.getD i 0 = x.getD i 0) := by
  obtain ⟨w1, w2, w3⟩ := hx
  obtain ⟨l1, l2, l3⟩ := hl
  have hx' : x' = (rows lo hi x steps mask).map fun (lo, hi, x, r, m) => entry d ratio lo hi x r m := by
    unfold move at h
    simp only at h
    split at h
    · cases h
    · split at h
      · cases h
      · cases h; rfl
  have hlen : x'.length = x.length := by rw [hx']; simp [rows, w1, w2, l1, l2]
  have hget : ∀ i, i < x.length → x'.getD i 0 = entry d ratio (lo.getD i 0) (hi.getD i 0) (x.getD i 0) (steps.getD i 0) (mask.getD i 0) := by
    intro i hi'
    rw [List.getD_eq_getElem?_getD, hx', List.getElem?_map]
    have : (rows lo hi x steps mask)[i]? = some (lo.getD i 0, hi.getD i 0, x.getD i 0, steps.getD i 0, mask.getD i 0) := by
      simp [rows, List.getElem?_zip_eq_some, hi', w1, w2, l1, l2]
    rw [this]; rfl
  have key : ∀ i, i < x.length → _ := fun i hi' =>
    entry_spec d ratio (lo.getD i 0) (hi.getD i 0) (x.getD i 0) (steps.getD i 0) (mask.getD i 0) n (w3 i hi').1 (w3 i hi').2
      (by have := (l3 (steps[i]'(by omega)) (List.getElem_mem _)).1; simpa [l1, hi'] using this)
      (by have := (l3 (steps[i]'(by omega)) (List.getElem_mem _)).2; simpa [l1, hi'] using this)
      (by have := hlo (lo[i]'(by omega)) (List.getElem_mem _); simpa [w1, hi'] using this)
      (by have := hhi (hi[i]'(by omega)) (List.getElem_mem _); simpa [w2, hi'] using this)
  refine ⟨⟨by omega, by omega, fun i hi' => ?_⟩, hlen, fun i hi' => ?_⟩
  · rw [hget i (by omega)]
    exact ⟨(key i (by omega)).1, (key i (by omega)).2.1⟩
  · rw [hget i hi']
    exact ⟨(key i hi').2.2.1, (key i hi').2.2.2⟩

/-- **C65** (partial): every state ever reached, by any sequence of moves with any random numbers and of returns to earlier
states, is within the bounds.  Missing: as for `c65_move_partial`. -/
theorem c65_moves_partial (d : Dtype) (n : ℤ) (ratio : ℝ) (lo hi : List ℝ) (hlo : ∀ b ∈ lo, Representable d b)
    (hhi : ∀ b ∈ hi, Representable d b) : ∀ (as : List Act) (states states' : List (List ℝ)), states ≠ [] →
    (∀ x ∈ states, Within lo hi x) → (∀ a ∈ as, a.Legal n lo.length) → run d (.int n) ratio lo hi states as = .ok states' →
    ∀ x ∈ states', Within lo hi x
  | [], states, states', _, h, _, hr => by cases hr; exact h
  | a :: as, states, states', hne, h, hl, hr => by
    unfold run at hr
    split at hr
    · cases hr
    · next states1 hs =>
      refine c65_moves_partial d n ratio lo hi hlo hhi as states1 states' ?_ ?_ (fun b hb => hl b (by simp [hb])) hr
      · cases a <;> simp only [step] at hs
        · split at hs <;> cases hs; simp
        · cases hs; simp
      · have hhead : states.headD [] ∈ states := by cases states with | nil => exact absurd rfl hne | cons => simp
        have hla := hl a (by simp)
        cases a with
        | move steps mask =>
          simp only [step] at hs
          split at hs
          · cases hs
          · next x hx =>
            cases hs
            have hw := h _ hhead
            have := (c65_move_partial d n ratio lo hi _ steps mask x hw (by rw [← hw.1]; exact hla) hlo hhi hx).1
            intro z hz
            rcases List.mem_cons.1 hz with rfl | hz
            · exact this
            · exact h z hz
        | restore k =>
          simp only [step] at hs
          cases hs
          intro z hz
          rcases List.mem_cons.1 hz with rfl | hz
          · by_cases hk : k < states.length
            · rw [List.getD_eq_getElem _ _ hk]; exact h _ (List.getElem_mem _)
            · rw [List.getD_eq_default _ _ (by omega)]; exact h _ hhead
          · exact h z hz

/-- **C65**: a move succeeds exactly for positive step sizes of type `int`; zero, negative and other step sizes are rejected with
a ValueError. -/
theorem c65_rejects (d : Dtype) (s : StepSize) (ratio : ℝ) (l : List (ℝ × ℝ × ℝ × ℤ × ℝ)) :
    ((∃ x, move d s ratio l = .ok x) ↔ ∃ n, s = .int n ∧ 0 < n) ∧ ((∀ n, s = .int n → ¬ 0 < n) → move d s ratio l = .error .valueError) := by
  cases s with
  | other => simp [move]
  | int n =>
    have hf : (∃ k, StepSize.int n = .int k ∧ 0 < k) ↔ 0 < n := by simp
    rw [hf]
    simp only [move]
    split
    · simp; omega
    · split
      · simp; omega
      · refine ⟨⟨fun _ => by omega, fun _ => ⟨_, rfl⟩⟩, fun h => absurd (h n rfl) (by simp; omega)⟩

/-- **C65** fails for an array of integers with a bound that is not an integer: from 1, which is within 1/2 and 3, the move by -1
ends at 0, which is below 1/2. -/
theorem c65_violated : ∃ x', move .int (.int 1) 1 (rows [1 / 2] [3] [1] [-1] [0]) = .ok x' ∧ Within [1 / 2] [3] [1] ∧
    (Act.move [-1] [0]).Legal 1 1 ∧ ¬ Within [1 / 2] [3] x' := by
  refine ⟨[0], ?_, ?_, ?_, ?_⟩
  · have h1 : ⌊(1 / 2 : ℝ)⌋ = 0 := by rw [Int.floor_eq_iff]; norm_num
    have h2 : ¬ (1 : ℝ) < 0 := by norm_num
    have h3 : ¬ (3 : ℝ) < 0 := by norm_num
    have h4 : (0 : ℝ) < 2⁻¹ := by norm_num
    have h5 : (0 : ℝ) ≤ 2⁻¹ := by norm_num
    simp at h1
    simp [move, rows, entry, store, trunc, h2, h3, h4, h5, h1]
  · simp [Within]; norm_num
  · simp [Act.Legal]
  · simp [Within]

/-- The hypotheses of the theorems: a move of two entries, the first against its bound, the second excluded by the mask. -/
example : move .float (.int 2) (1 / 2) (rows [0, 0] [3 / 2, 5] [1, 4] [2, -1] [0, 3 / 4]) = .ok [3 / 2, 4] ∧
    Within [0, 0] [3 / 2, 5] [1, 4] ∧ (Act.move [2, -1] [0, 3 / 4]).Legal 2 2 := by
  refine ⟨?_, ?_, ?_⟩
  · have h1 : ¬ (1 / 2 : ℝ) < 0 := by norm_num
    have h2 : (1 / 2 : ℝ) < 3 / 4 := by norm_num
    simp [move, rows, entry, store]
    norm_num
  · refine ⟨rfl, rfl, fun i hi => ?_⟩
    match i, hi with
    | 0, _ => norm_num
    | 1, _ => norm_num
  · simp [Act.Legal]

end Verif.Optim.Anneal
