import Verif.Optim.Records
import Mathlib.Tactic.IntervalCases

/-!
# Witnesses for C60, C61 and C63, and non-trivial instances of the theorems
-/

namespace Verif.Optim
open Verif Verif.Transfer

noncomputable section

/-- One time step, one control, one cost value which is the parameter itself; ten seconds. -/
abbrev identityCfg (w : Option (List ℝ)) : Cfg :=
  { T := 1, C := 1, F := 1, weights := w, save := true, useJac := true, scalar := false, maxWall := 10,
    sim := fun _ y => .ok [rowAt y 0 0], jac := fun _ _ => .ok [fun _ _ => 1] }

theorem unflatten_one (x : ℝ) : unflatten 1 1 [x] = .ok ([fun _ => x] : Pulse ℝ 1) := by
  simp [unflatten]

theorem norm_single (x : ℝ) : norm [x] = |x| := by simp [norm, Real.sqrt_sq_eq_abs]

/-- **C60** fails with weights: one evaluation with cost 3 and weight 2 is recorded with cost 6. -/
theorem c60_violated_weights :
    (evaluations (identityCfg (some [2])) 0 [.cost [3] 1]).map Prod.snd = [[3]] ∧
    recordedCosts (run (identityCfg (some [2])) (prepared 1 1) [.cost [3] 1]).2 = [[6]] := by
  constructor
  · simp [evaluations, identityCfg, unflatten_one, rowAt, weigh]
  · simp [recordedCosts, run, step, costWrapper, identityCfg, unflatten_one, rowAt, weigh, prepared, deref, better]
    norm_num

/-- **C60** fails when the caller reuses its vector for the next evaluation: the recorded parameters change with it. -/
theorem c60_violated_reuse :
    (evaluations (identityCfg none) 0 [.cost [3] 1, .write 0 [5]]).map Prod.fst = [[fun _ => 3]] ∧
    recordedPars (identityCfg none) (run (identityCfg none) (prepared 1 1) [.cost [3] 1, .write 0 [5]]).2 = [[fun _ => 5]] := by
  constructor
  · simp [evaluations, identityCfg, unflatten_one, rowAt, weigh]
  · simp [recordedPars, run, step, costWrapper, identityCfg, unflatten_one, rowAt, weigh, prepared, deref, better, viewPar]
    try norm_num [unflatten_one]

/-- **C61** fails with weights: of the costs 3 and 2 the second is better, but the first stays stored, because it has been
multiplied with the weight 1/2 in the meantime. -/
theorem c61_violated :
    let cfg := identityCfg (some [1 / 2])
    let es := [Event.cost [3] 1, .cost [2] 1]
    let st := (run cfg (prepared 1 1) es).2
    (evaluations cfg 0 es).map (fun e => norm e.2) = [3, 2] ∧ st.minPar.map (viewPar cfg st) = some [fun _ => 3] := by
  have h : ¬ norm [2] < norm [3 * (2 : ℝ)⁻¹] := by rw [norm_single, norm_single]; norm_num [abs_of_pos]
  constructor
  · simp [evaluations, identityCfg, unflatten_one, rowAt, weigh, norm_single]
  · have h1 : ¬ (10 : ℝ) < 1 := by norm_num
    simp [run, step, costWrapper, identityCfg, unflatten_one, rowAt, weigh, prepared, deref, better, viewPar, h, h1]

/-- Two time steps, two controls; the cost is 1 and the derivative is the entry `[0, 1]` of the pulse. -/
abbrev squareCfg : Cfg :=
  { T := 2, C := 2, F := 1, weights := none, save := true, useJac := true, scalar := false, maxWall := 10,
    sim := fun _ _ => .ok [1], jac := fun _ y => .ok [fun _ => ![rowAt y 0 1, 0], fun _ => ![0, 0]] }

theorem unflatten_two (a b c d : ℝ) : unflatten 2 2 [a, b, c, d] = .ok ([![a, c], ![b, d]] : Pulse ℝ 2) := by
  simp only [unflatten]
  rw [if_pos (by simp)]
  simp [List.range_succ]
  constructor <;> · funext c; fin_cases c <;> simp

theorem square_run : ∃ st, run squareCfg (prepared 1 2) [.cost [1, 2, 3, 4] 1, .cost [1, 2, 3, 4] 11] = (some .wallTime, st) ∧
    st.heap = [[1, 2, 3, 4], [1], [1, 2, 3, 4]] ∧ st.minCosts = some 1 ∧ st.minPar = some 0 := by
  have h1 : ¬ (10 : ℝ) < 1 := by norm_num
  have h2 : (10 : ℝ) < 11 := by norm_num
  simp [run, step, costWrapper, squareCfg, unflatten_two, weigh, prepared, deref, better, h1, h2]

/-- **C63** fails for a pulse with two time steps and two controls: the best parameters are `[[1, 3], [2, 4]]`, for which the
Jacobian wrapper returns `[[3, 0, 0, 0]]`, but the reported norm is 2: the parameters are reshaped twice. -/
theorem c63_violated_shape : ∃ st st' r,
    run squareCfg (prepared 1 2) [.cost [1, 2, 3, 4] 1, .cost [1, 2, 3, 4] 11] = (some .wallTime, st) ∧
    writeState squareCfg st = (.ok r, st') ∧ r.finalParameters = some [![1, 3], ![2, 4]] ∧
    (ownJac squareCfg st (flattenT [![1, 3], ![2, 4]])).1 = .ok [3, 0, 0, 0] ∧ r.finalGradNorm = 2 := by
  obtain ⟨st, h1, h2, h3, h4⟩ := square_run
  have hv : viewPar squareCfg st 0 = [![1, 3], ![2, 4]] := by
    have hd : deref st.heap 0 = [1, 2, 3, 4] := by rw [h2]; rfl
    simp only [viewPar, hd]
    rw [unflatten_two]
  have hj : ∀ a b c d : ℝ, (jacWrapper squareCfg st [a, b, c, d]).1 = .ok [[c, 0, 0, 0]] ∧
      (jacWrapper squareCfg st [a, b, c, d]).2.minPar = st.minPar ∧ (jacWrapper squareCfg st [a, b, c, d]).2.heap = st.heap := by
    intro a b c d
    simp [jacWrapper, squareCfg, unflatten_two, flattenJac, flattenT, weighJac, rowAt, List.finRange_succ]
  have h5 := hj 1 3 2 4
  rcases hjw : jacWrapper squareCfg st [1, 3, 2, 4] with ⟨r, st'⟩
  rw [hjw] at h5
  obtain ⟨rfl, h6, h7⟩ := h5
  refine ⟨st, st', ⟨st'.minCosts.map (deref st'.heap), st'.minPar.map (viewPar squareCfg st'), norm [2, 0, 0, 0], st'.nCost, 5⟩,
    h1, ?_, ?_, ?_, ?_⟩
  · have hr : rowMajor ([![1, 3], ![2, 4]] : Pulse ℝ 2) = [1, 3, 2, 4] := by simp [rowMajor, List.ofFn_succ]
    unfold writeState
    simp only [h4]
    rw [hv]
    erw [hr]
    have hu : squareCfg.useJac = true := rfl
    have hs : squareCfg.scalar = false := rfl
    simp only [hu, ownJac, hs, hjw]
    rfl
  · simp only at h6 h7
    have : viewPar squareCfg st' 0 = viewPar squareCfg st 0 := by unfold viewPar; rw [h7]
    simp only [h6, h4, Option.map_some]
    rw [this, hv]
  · have hf : flattenT ([![1, 3], ![2, 4]] : Pulse ℝ 2) = [1, 2, 3, 4] := by simp [flattenT, List.finRange_succ]
    have h8 := (hj 1 2 3 4).1
    rw [hf]
    unfold ownJac
    have hs : squareCfg.scalar = false := rfl
    simp only [hs]
    rcases hjw : jacWrapper squareCfg st [1, 2, 3, 4] with ⟨r, st'⟩
    rw [hjw] at h8
    simp only at h8
    subst h8
    rfl
  · simp [norm]

/-- **C63** fails when the time is over before the first evaluation: instead of a result the caller gets an AttributeError. -/
theorem c63_violated_early (cfg : Cfg) (hj : cfg.useJac = true) (v : List ℝ) (t : ℝ) (ht : cfg.maxWall < t) :
    ∃ st, run cfg (prepared cfg.F cfg.C) [.cost v t] = (some .wallTime, st) ∧ (writeState cfg st).1 = .error .attributeError := by
  refine ⟨{ prepared cfg.F cfg.C with heap := [v] }, ?_, ?_⟩
  · simp [run, step, costWrapper, ht, prepared]
  · simp [writeState, hj, prepared]

/-! ## Instances of the hypotheses -/

/-- A history with three evaluations, a derivative and a time-out. -/
def history : List Event := [.cost [3] 1, .jac [3], .cost [-2] 2, .cost [2] 3, .cost [1] 11]

theorem history_evaluations : evaluations (identityCfg none) 0 history = [([fun _ => 3], [3]), ([fun _ => -2], [-2]), ([fun _ => 2], [2])] := by
  have h1 : ¬ (10 : ℝ) < 1 := by norm_num
  have h2 : ¬ (10 : ℝ) < 2 := by norm_num
  have h3 : ¬ (10 : ℝ) < 3 := by norm_num
  have h4 : (10 : ℝ) < 11 := by norm_num
  simp [evaluations, history, identityCfg, unflatten_one, rowAt, weigh, weighJac, h1, h2, h3, h4]

theorem history_run : ∃ st, run (identityCfg none) (prepared 1 1) history = (some .wallTime, st) := by
  have h1 : ¬ (10 : ℝ) < 1 := by norm_num
  have h2 : ¬ (10 : ℝ) < 2 := by norm_num
  have h3 : ¬ (10 : ℝ) < 3 := by norm_num
  have h4 : (10 : ℝ) < 11 := by norm_num
  simp [run, step, costWrapper, jacWrapper, history, identityCfg, unflatten_one, rowAt, weigh, weighJac, flattenJac, prepared, deref,
    better, norm_single, h1, h2, h3, h4]

theorem history_noWrite : ∀ e ∈ history, e.isWrite = false := by simp [history, Event.isWrite]

example : recordedCosts (run (identityCfg none) (prepared 1 1) history).2 = [[3], [-2], [2]] := by
  have := (c60_recorded_partial (identityCfg none) rfl rfl history history_noWrite).1
  rw [history_evaluations] at this
  exact this

theorem history_gradients : gradientEvaluations (identityCfg none) 0 history = [[fun _ _ => 1]] := by
  have h1 : ¬ (10 : ℝ) < 1 := by norm_num
  have h2 : ¬ (10 : ℝ) < 2 := by norm_num
  have h3 : ¬ (10 : ℝ) < 3 := by norm_num
  have h4 : (10 : ℝ) < 11 := by norm_num
  simp [gradientEvaluations, history, identityCfg, unflatten_one, rowAt, weigh, weighJac, h1, h2, h3, h4]

example : (run (identityCfg none) (prepared 1 1) history).2.gradients = [[fun _ _ => 1]] :=
  (c60_gradients_partial (identityCfg none) rfl history).trans history_gradients

/-- `c61_best_partial` applies: the first of the two best evaluations (-2 and 2) is stored. -/
example : ∃ st : St 1 1, (run (identityCfg none) (prepared 1 1) history).2 = st ∧
    st.minPar.map (viewPar (identityCfg none) st) = some [fun _ => -2] := by
  refine ⟨_, rfl, ?_⟩
  rcases c61_best_partial (identityCfg none) rfl history history_noWrite with h | ⟨k, e, h1, h2, h3, h4⟩
  · rw [history_evaluations] at h
    simp at h
  · rw [history_evaluations] at h1 h2
    obtain ⟨m, hm, hall⟩ := h2
    have hk : k < 3 := by
      by_contra hk
      rw [List.getElem?_eq_none (by simp; omega)] at h1
      cases h1
    simp only [List.map_cons, List.map_nil, norm_single] at hm hall
    interval_cases k
    · simp at hm
      have := (hall 1 |(-2)| (by simp)).1
      rw [← hm, abs_neg, abs_of_pos (by norm_num : (0 : ℝ) < 2)] at this
      norm_num at this
    · simp at h1
      exact h4.trans (by rw [← h1])
    · simp at hm
      have := (hall 1 |(-2)| (by simp)).2 (by norm_num)
      rw [← hm] at this
      simp at this

/-- `c63_timeout_partial` applies to the same history. -/
theorem history_timeout : ∃ st st' : St 1 1, ∃ r, run (identityCfg none) (prepared 1 1) history = (some .wallTime, st) ∧
    writeState (identityCfg none) st = (.ok r, st') ∧ evaluations (identityCfg none) 0 history ≠ [] := by
  obtain ⟨st, hst⟩ := history_run
  have hinv := run_inv (identityCfg none) history _ [] (prepared_inv _) history_noWrite
  have he : evaluations (identityCfg none) (prepared 1 1).calls history ≠ [] := by
    show evaluations (identityCfg none) 0 history ≠ []
    rw [history_evaluations]; simp
  rcases hinv.min with h | ⟨k, e, a, b, q1, q2, q3, q4, q5, q6, q7, q8⟩
  · exact absurd h.1 he
  erw [hst] at q3 q7
  have hview : viewPar (identityCfg none) st b = e.1 := by simp only [viewPar]; rw [q7]
  have hlen := unflatten_ok q7
  obtain ⟨row, hrow⟩ := List.length_eq_one_iff.1 hlen.2.1
  have hok : unflatten 1 1 (rowMajor e.1) = .ok ([fun _ => row 0] : Pulse ℝ 1) := by
    rw [hrow]
    simp [rowMajor, List.ofFn_succ]
    exact unflatten_one _
  have : ∃ r st', writeState (identityCfg none) st = (.ok r, st') := by
    unfold writeState
    have hu : (identityCfg none).useJac = true := rfl
    have hs : (identityCfg none).scalar = false := rfl
    simp only at q3
    simp only [q3, hview, hu, ownJac, hs]
    unfold jacWrapper
    have hok' : unflatten (identityCfg none).T (identityCfg none).C (rowMajor e.1) = .ok ([fun _ => row 0] : Pulse ℝ 1) := hok
    rw [hok']
    exact ⟨_, _, rfl⟩
  obtain ⟨r, st', h⟩ := this
  exact ⟨st, st', r, hst, h, he⟩

end
end Verif.Optim
