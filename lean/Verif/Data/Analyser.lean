import Verif.Py
import Mathlib.Data.Real.Sqrt
import Mathlib.Data.List.GetD
import Mathlib.Algebra.BigOperators.Group.List.Basic
import Mathlib.Tactic.NormNum

/-!
# C70: the analyser (analyser.py:67-86, 124-147)

Costs are finite real numbers; `nan` only occurs as the filling of `absolute_costs` and is modelled by `none`.
-/

namespace Verif.Data
open Verif

/-- `DataContainer.final_costs`: a list of numbers or a list of arrays of numbers.  Anything else cannot be converted to an array
of numbers of one of these two shapes. -/
inductive FinalCosts where
  | scalars (l : List ℝ)
  | vectors (l : List (List ℝ))

open Classical in
/-- `np.argmin` of a non-empty list: the position of the first smallest entry. -/
noncomputable def argminAux : ℝ → Nat → Nat → List ℝ → Nat
  | _, best, _, [] => best
  | m, best, i, x :: l => if x < m then argminAux x i (i + 1) l else argminAux m best (i + 1) l

@[inherit_doc argminAux]
noncomputable def argmin : List ℝ → Except PyErr Nat
  | [] => .error .valueError
  | x :: l => .ok (argminAux x 0 1 l)

/-- The array of final costs as a list of rows, analyser.py:80-83: a one-dimensional array becomes a column; ValueError for rows of
different lengths. -/
def rowsOf : FinalCosts → Except PyErr (List (List ℝ))
  | .scalars l => .ok (l.map fun x => [x])
  | .vectors l => if ∀ r ∈ l, r.length = (l.headD []).length then .ok l else .error .valueError

/-- `Analyser.n_least_square`, analyser.py:67-86. -/
noncomputable def nLeastSquare (c : FinalCosts) : Except PyErr Nat :=
  match rowsOf c with
  | .error e => .error e
  | .ok rows => argmin (rows.map fun r => (r.map fun x => x ^ 2).sum)

/-- `costs[i, :num_steps, :] = np.stack(run, axis=0)`, analyser.py:141-143: ValueError for an empty run or rows of different lengths;
rows of length one are broadcast. -/
def stackRun (n : Nat) (run : List (List ℝ)) : Except PyErr (List (List ℝ)) :=
  match run with
  | [] => .error .valueError
  | r :: _ =>
    if ∀ r' ∈ run, r'.length = r.length then
      if r.length = n then .ok run
      else if r.length = 1 then .ok (run.map fun r' => List.replicate n (r'.getD 0 0))
      else .error .valueError
    else .error .valueError

/-- The rows of one run, filled up with `nan`; `np.sqrt(np.sum(costs ** 2, axis=2))`, analyser.py:145. -/
noncomputable def runNorms (steps : Nat) (rows : List (List ℝ)) : List (Option ℝ) :=
  (rows.map fun r => some (√ (r.map fun x => x ^ 2).sum)) ++ List.replicate (steps - rows.length) none

/-- `np.max(list(map(len, self.data.costs)))`, analyser.py:133. -/
def maxLen {α : Type} : List (List α) → Except PyErr Nat
  | [] => .error .valueError
  | r :: l => .ok (l.foldl (fun m r => max m r.length) r.length)

/-- The loop over the runs, analyser.py:141-143, with the norms of each run. -/
noncomputable def normLoop (steps n : Nat) : List (List (List ℝ)) → Except PyErr (List (List (Option ℝ)))
  | [] => .ok []
  | run :: l => match stackRun n run with
    | .error e => .error e
    | .ok rows => match normLoop steps n l with
      | .error e => .error e
      | .ok rest => .ok (runNorms steps rows :: rest)

/-- `Analyser.absolute_costs`, analyser.py:124-147; `costs[r][s][f]` is the value of cost function `f` in step `s` of run `r`;
`len(self.data.costs[0][0])` is an IndexError when the first run has no steps. -/
noncomputable def absoluteCosts (costs : List (List (List ℝ))) : Except PyErr (List (List (Option ℝ))) :=
  match maxLen costs with
  | .error e => .error e
  | .ok steps => match costs with
    | (first :: _) :: _ => normLoop steps first.length costs
    | _ => .error .indexError

/-! ## Specification and proofs -/

/-- Specification: the sum of the squares. -/
def sumSq (r : List ℝ) : ℝ := (r.map fun x => x ^ 2).sum

/-- Specification: the costs of run `k`. -/
def FinalCosts.run : FinalCosts → Nat → Option (List ℝ)
  | .scalars l, k => l[k]?.map fun x => [x]
  | .vectors l, k => l[k]?

theorem argminAux_spec : ∀ (l : List ℝ) (pre : List ℝ) (m : ℝ) (best : Nat), best < pre.length → pre[best]? = some m →
    (∀ (j : Nat) (x : ℝ), pre[j]? = some x → m ≤ x ∧ (j < best → m < x)) →
    ∃ m', (pre ++ l)[argminAux m best pre.length l]? = some m' ∧
      ∀ (j : Nat) (x : ℝ), (pre ++ l)[j]? = some x → m' ≤ x ∧ (j < argminAux m best pre.length l → m' < x)
  | [], pre, m, best, hb, hm, h => by
    simp only [argminAux, List.append_nil]
    exact ⟨m, hm, h⟩
  | y :: l, pre, m, best, hb, hm, h => by
    have e1 : pre ++ y :: l = (pre ++ [y]) ++ l := by simp
    have e2 : pre.length + 1 = (pre ++ [y]).length := by simp
    have hlast : ∀ (j : Nat) (x : ℝ), (pre ++ [y])[j]? = some x → pre[j]? = some x ∧ j < pre.length ∨ j = pre.length ∧ x = y := by
      intro j x hx
      by_cases hj : j < pre.length
      · left; rw [List.getElem?_append_left hj] at hx; exact ⟨hx, hj⟩
      · right
        rw [List.getElem?_append_right (by omega)] at hx
        have hz : j - pre.length = 0 := by
          by_contra hne
          rw [List.getElem?_eq_none (by simp; omega)] at hx
          cases hx
        rw [hz] at hx
        simp at hx
        exact ⟨by omega, hx.symm⟩
    unfold argminAux
    split
    · next hlt =>
      rw [e1, e2]
      refine argminAux_spec l (pre ++ [y]) y pre.length (by simp) (by simp) fun j x hx => ?_
      rcases hlast j x hx with ⟨hx, hj⟩ | ⟨hj, rfl⟩
      · have := hlt.trans_le (h j x hx).1
        exact ⟨this.le, fun _ => this⟩
      · exact ⟨le_rfl, fun h => by omega⟩
    · next hlt =>
      rw [e1, e2]
      refine argminAux_spec l (pre ++ [y]) m best (by simp; omega) (by rw [List.getElem?_append_left hb]; exact hm) fun j x hx => ?_
      rcases hlast j x hx with ⟨hx, hj⟩ | ⟨hj, rfl⟩
      · exact h j x hx
      · exact ⟨not_lt.1 hlt, fun h => by omega⟩

theorem argmin_spec {l : List ℝ} {k : Nat} (h : argmin l = .ok k) :
    ∃ m, l[k]? = some m ∧ ∀ (j : Nat) (x : ℝ), l[j]? = some x → m ≤ x ∧ (j < k → m < x) := by
  cases l with
  | nil => cases h
  | cons y l =>
    cases h
    refine argminAux_spec l [y] y 0 (by simp) rfl fun j x hx => ?_
    cases j with
    | zero => simp at hx; subst hx; exact ⟨le_rfl, fun h => by omega⟩
    | succ j => simp at hx

theorem rowsOf_get {c : FinalCosts} {rows} (h : rowsOf c = .ok rows) (k : Nat) : rows[k]? = c.run k := by
  cases c with
  | scalars l => cases h; simp [FinalCosts.run]
  | vectors l =>
    simp only [rowsOf] at h
    split at h
    · cases h; rfl
    · cases h

/-- **C70** (best run): the returned number is that of a run with the smallest sum of squared final costs, and every earlier run
has a larger one. -/
theorem c70_best_run (c : FinalCosts) (k : Nat) (h : nLeastSquare c = .ok k) :
    ∃ r, c.run k = some r ∧ ∀ (j : Nat) (r' : List ℝ), c.run j = some r' → sumSq r ≤ sumSq r' ∧ (j < k → sumSq r < sumSq r') := by
  unfold nLeastSquare at h
  split at h
  · cases h
  next rows hr =>
    obtain ⟨m, hm, hall⟩ := argmin_spec h
    rw [List.getElem?_map] at hm
    obtain ⟨r, h1, rfl⟩ := Option.map_eq_some_iff.1 hm
    refine ⟨r, by rw [← rowsOf_get hr, h1], fun j r' hj => ?_⟩
    exact hall j _ (by rw [List.getElem?_map, rowsOf_get hr, hj]; rfl)

/-- **C70**: a run is found whenever there is at least one and all have equally many cost values; otherwise a ValueError is
raised. -/
theorem c70_found (c : FinalCosts) :
    ((∃ k, nLeastSquare c = .ok k) ↔ (∃ r, c.run 0 = some r) ∧ ∀ (i j : Nat) (r r' : List ℝ), c.run i = some r → c.run j = some r' →
      r.length = r'.length) ∧ ∀ e, nLeastSquare c = .error e → e = .valueError := by
  cases c with
  | scalars l =>
    cases l with
    | nil => simp [nLeastSquare, rowsOf, argmin, FinalCosts.run]
    | cons x l =>
      simp only [nLeastSquare, rowsOf, List.map_cons, argmin, FinalCosts.run]
      refine ⟨⟨fun _ => ⟨by simp, fun i j r r' h1 h2 => ?_⟩, fun _ => ⟨_, rfl⟩⟩, fun e h => by cases h⟩
      obtain ⟨a, _, rfl⟩ := Option.map_eq_some_iff.1 h1
      obtain ⟨b, _, rfl⟩ := Option.map_eq_some_iff.1 h2
      rfl
  | vectors l =>
    cases l with
    | nil => simp [nLeastSquare, rowsOf, argmin, FinalCosts.run]
    | cons x l =>
      simp only [nLeastSquare, rowsOf, FinalCosts.run]
      by_cases hl : ∀ r ∈ x :: l, r.length = ((x :: l).headD []).length
      · rw [if_pos hl]
        refine ⟨⟨fun _ => ⟨by simp, fun i j r r' h1 h2 => ?_⟩, fun _ => ⟨_, rfl⟩⟩, fun e h => by cases h⟩
        rw [hl r (List.mem_of_getElem? h1), hl r' (List.mem_of_getElem? h2)]
      · rw [if_neg hl]
        refine ⟨⟨fun h => (nomatch h), fun h => absurd (fun r hr => ?_) hl⟩, fun e h => by cases h; rfl⟩
        obtain ⟨i, hi⟩ := List.getElem?_of_mem hr
        exact h.2 i 0 r x hi rfl

/-! ### absolute_costs -/

theorem foldl_max (l : List (List (List ℝ))) : ∀ m : Nat, m ≤ l.foldl (fun m r => max m r.length) m ∧
    ∀ r ∈ l, r.length ≤ l.foldl (fun m r => max m r.length) m := by
  induction l with
  | nil => intro m; exact ⟨le_rfl, by simp⟩
  | cons x l ih =>
    intro m
    have h := ih (max m x.length)
    refine ⟨(le_max_left _ _).trans h.1, fun r hr => ?_⟩
    rcases List.mem_cons.1 hr with rfl | hr
    · exact (le_max_right _ _).trans h.1
    · exact h.2 r hr

theorem foldl_max_attained (l : List (List (List ℝ))) : ∀ m : Nat, l.foldl (fun m r => max m r.length) m = m ∨
    ∃ r ∈ l, l.foldl (fun m r => max m r.length) m = r.length := by
  induction l with
  | nil => intro m; exact Or.inl rfl
  | cons x l ih =>
    intro m
    rcases ih (max m x.length) with h | ⟨r, hr, h⟩
    · rcases le_total m x.length with hx | hx
      · right; exact ⟨x, by simp, by rw [List.foldl_cons, h, max_eq_right hx]⟩
      · left; rw [List.foldl_cons, h, max_eq_left hx]
    · right; exact ⟨r, by simp [hr], h⟩

theorem maxLen_ok {costs : List (List (List ℝ))} {steps : Nat} (h : maxLen costs = .ok steps) :
    (∀ r ∈ costs, r.length ≤ steps) ∧ ∃ r ∈ costs, r.length = steps := by
  cases costs with
  | nil => cases h
  | cons x l =>
    cases h
    have h := foldl_max l x.length
    constructor
    · intro r hr
      rcases List.mem_cons.1 hr with rfl | hr
      · exact h.1
      · exact h.2 r hr
    · rcases foldl_max_attained l x.length with e | ⟨r, hr, e⟩
      · exact ⟨x, by simp, e.symm⟩
      · exact ⟨r, by simp [hr], e.symm⟩

/-- All rows have the same length `n`. -/
def Regular (n : Nat) (costs : List (List (List ℝ))) : Prop := ∀ run ∈ costs, run ≠ [] ∧ ∀ r ∈ run, r.length = n

theorem stackRun_ok {n : Nat} {run : List (List ℝ)} (h1 : run ≠ []) (h2 : ∀ r ∈ run, r.length = n) : stackRun n run = .ok run := by
  cases run with
  | nil => exact absurd rfl h1
  | cons r l =>
    have hr := h2 r (by simp)
    simp only [stackRun]
    rw [if_pos fun r' hr' => by rw [h2 r' hr', hr], if_pos hr]

theorem normLoop_ok (steps n : Nat) : ∀ costs : List (List (List ℝ)), Regular n costs →
    normLoop steps n costs = .ok (costs.map (runNorms steps))
  | [], _ => rfl
  | run :: l, h => by
    obtain ⟨h1, h2⟩ := h run (by simp)
    unfold normLoop
    rw [stackRun_ok h1 h2, normLoop_ok steps n l fun r hr => h r (by simp [hr])]
    rfl

/-- **C70** (absolute costs): for runs with at least one step and equally many cost values, entry `[r][s]` is the Euclidean norm of
the costs in step `s` of run `r`, and `nan` beyond the last step; all rows have the length of the longest run. -/
theorem c70_absolute_costs_partial (costs : List (List (List ℝ))) (n : Nat) (hne : costs ≠ []) (h : Regular n costs) :
    ∃ out steps, absoluteCosts costs = .ok out ∧ out.length = costs.length ∧
      (∀ run ∈ costs, run.length ≤ steps) ∧ (∃ run ∈ costs, run.length = steps) ∧
      ∀ (r : Nat) (run : List (List ℝ)), costs[r]? = some run →
        ∃ row, out[r]? = some row ∧ row.length = steps ∧
          (∀ (s : Nat) (c : List ℝ), run[s]? = some c → row[s]? = some (some (√ (sumSq c)))) ∧
          ∀ s, run.length ≤ s → s < steps → row[s]? = some none := by
  match costs, hne with
  | run0 :: l, _ =>
    obtain ⟨h1, h2⟩ := h run0 (by simp)
    match hr0 : run0, h1 with
    | c0 :: run1, _ =>
      obtain ⟨steps, hs⟩ : ∃ steps, maxLen ((c0 :: run1) :: l) = .ok steps := ⟨_, rfl⟩
      obtain ⟨m1, m2⟩ := maxLen_ok hs
      refine ⟨((c0 :: run1) :: l).map (runNorms steps), steps, ?_, by simp, m1, m2, ?_⟩
      · unfold absoluteCosts
        rw [hs]
        simp only
        rw [h2 c0 (by simp)]
        exact normLoop_ok steps n _ h
      · intro r run hrun
        have hle := m1 run (List.mem_of_getElem? hrun)
        refine ⟨runNorms steps run, by rw [List.getElem?_map, hrun]; rfl, by simp [runNorms]; omega, fun s c hc => ?_, fun s h1 h2 => ?_⟩
        · have hlt : s < run.length := (List.getElem?_eq_some_iff.1 hc).1
          unfold runNorms
          rw [List.getElem?_append_left (by simpa using hlt), List.getElem?_map, hc]
          rfl
        · unfold runNorms
          rw [List.getElem?_append_right (by simpa using h1), List.getElem?_replicate, if_pos (by simp; omega)]

/-- Runs that cannot be put into the array of the first run's width end in a ValueError. -/
theorem normLoop_error (steps n : Nat) (run : List (List ℝ)) (hrun : stackRun n run = .error .valueError) :
    ∀ l : List (List (List ℝ)), run ∈ l → normLoop steps n l = .error .valueError
  | [], h => by simp at h
  | x :: l, h => by
    unfold normLoop
    cases hx : stackRun n x with
    | error e =>
      have : e = .valueError := by
        unfold stackRun at hx
        repeat' split at hx
        all_goals first | (cases hx; rfl) | (cases hx)
      simp [this]
    | ok rows =>
      rcases List.mem_cons.1 h with rfl | h
      · rw [hrun] at hx; cases hx
      · simp [normLoop_error steps n run hrun l h]

/-- **C70** fails for containers with a run that recorded no steps (`save_intermediary_steps=False`): there is an exception instead
of the norms of the other runs, IndexError if it is the first run and ValueError otherwise. -/
theorem c70_violated_empty_run (costs : List (List (List ℝ))) (h : [] ∈ costs) :
    absoluteCosts costs = .error (if costs.head? = some [] then .indexError else .valueError) := by
  unfold absoluteCosts
  match costs, h with
  | [] :: l, _ => simp [maxLen]
  | (c0 :: r) :: l, h => simpa [maxLen] using normLoop_error _ c0.length [] rfl _ h

/-- **C70** fails for runs with different numbers of cost values: a run whose steps have another number of costs than the first step of
the first run, and not a single one, ends in a ValueError. -/
theorem c70_violated_widths (costs : List (List (List ℝ))) (c0 : List ℝ) (r0 run : List (List ℝ)) (l : List (List (List ℝ)))
    (hc : costs = (c0 :: r0) :: l) (hrun : run ∈ costs) (m : Nat) (hne : run ≠ []) (hm : ∀ c ∈ run, c.length = m) (h1 : m ≠ 1)
    (h0 : m ≠ c0.length) : absoluteCosts costs = .error .valueError := by
  subst hc
  have hs : stackRun c0.length run = .error .valueError := by
    cases run with
    | nil => exact absurd rfl hne
    | cons c rest =>
      have hc := hm c (by simp)
      simp only [stackRun]
      rw [if_pos fun r' hr' => by rw [hm r' hr', hc], if_neg (by rw [hc]; exact h0), if_neg (by rw [hc]; exact h1)]
  simpa [absoluteCosts, maxLen] using normLoop_error _ c0.length run hs _ hrun

/-- **C70** fails silently for a run with a single cost value in every step after a first run with `n` of them: the value is repeated
`n` times, and the norm is too large by the factor `√ n`. -/
theorem c70_violated_broadcast (x y z : ℝ) (hz : z ≠ 0) :
    ∃ out, absoluteCosts [[[x, y]], [[z]]] = .ok out ∧ out[1]? = some [some (√ 2 * |z|)] ∧ √ 2 * |z| ≠ √ (sumSq [z]) := by
  have e : √ (z ^ 2 + z ^ 2) = √ 2 * |z| := by
    rw [← two_mul, Real.sqrt_mul (by norm_num), Real.sqrt_sq_eq_abs]
  refine ⟨[[some (√ (x ^ 2 + y ^ 2))], [some (√ (z ^ 2 + z ^ 2))]], ?_, by rw [e]; rfl, ?_⟩
  · simp [absoluteCosts, maxLen, normLoop, stackRun, runNorms, List.replicate, pow_two]
  · have h2 : √ (2 : ℝ) ≠ 1 := by
      intro h
      have := Real.sq_sqrt (show (0 : ℝ) ≤ 2 by norm_num)
      rw [h] at this
      norm_num at this
    simp only [sumSq, List.map_cons, List.map_nil, List.sum_cons, List.sum_nil, add_zero, Real.sqrt_sq_eq_abs]
    intro h
    exact h2 (mul_right_cancel₀ (abs_ne_zero.mpr hz) (by rw [h, one_mul]))

example : absoluteCosts [[[1, 2]], [[1, 2, 3], [4, 5, 6]]] = .error .valueError :=
  c70_violated_widths _ [1, 2] [] [[1, 2, 3], [4, 5, 6]] _ rfl (by simp) 3 (by simp) (by simp) (by norm_num) (by simp)

/-- Three runs; the second and third are equally good. -/
example : nLeastSquare (.vectors [[3, 1], [1, 2], [-2, 1]]) = .ok 1 := by
  have : ¬ (5 : ℝ) < 5 := lt_irrefl _
  norm_num [nLeastSquare, rowsOf, argmin, argminAux]

/-- A regular history with runs of different lengths. -/
example : Regular 2 [[[3, 4]], [[0, 1], [1, 0]]] := by
  intro run hr
  simp at hr
  rcases hr with rfl | rfl <;> simp

end Verif.Data
