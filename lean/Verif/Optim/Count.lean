import Verif.Optim.Violations

/-!
# C120: the numbers of evaluations an optimizer reports

The counters `_n_cost_fkt_eval` and `_n_jac_fkt_eval`, optimize.py:231, 266, 303-304 and 353, and the lengths of the recorded lists.
-/

namespace Verif.Optim
open Verif Verif.Transfer

/-! ## Lemmas -/

theorem costWrapper_nJac (cfg : Cfg) (st : St cfg.F cfg.C) (a : Nat) (t : ℝ) : (costWrapper cfg st a t).2.nJac = st.nJac := by
  unfold costWrapper
  split
  · rfl
  · split
    · rfl
    · split
      · rfl
      · simp only
        split <;> simp only [apply_ite St.nJac, ite_self]

/-- The counters after a history that no error of the simulator or of numpy has ended. -/
theorem run_counts (cfg : Cfg) : ∀ (es : List Event) (st : St cfg.F cfg.C), (∀ e, (run cfg st es).1 ≠ some (.py e)) →
    (run cfg st es).2.nCost = st.nCost + (evaluations cfg st.calls es).length ∧
    (run cfg st es).2.nJac = st.nJac + (gradientEvaluations cfg st.calls es).length ∧
    (run cfg st es).2.calls = st.calls + (evaluations cfg st.calls es).length + (gradientEvaluations cfg st.calls es).length
  | [], st, _ => by simp [run, evaluations, gradientEvaluations]
  | .write a v :: es, st, h => by
    simp only [run, step, evaluations, gradientEvaluations] at h ⊢
    exact run_counts cfg es _ h
  | .jac v :: es, st, h => by
    simp only [run, step, jacWrapper, evaluations, gradientEvaluations] at h ⊢
    cases hy : unflatten cfg.T cfg.C v with
    | error e => simp [hy] at h
    | ok y =>
      simp only [hy] at h ⊢
      cases hJ : cfg.jac st.calls y with
      | error e => simp [hJ] at h
      | ok J =>
        simp only [hJ] at h ⊢
        cases hj : weighJac cfg.weights (flattenJac J) with
        | error e => simp [hj] at h
        | ok j =>
          simp only [hj] at h ⊢
          obtain ⟨h1, h2, h3⟩ := run_counts cfg es _ h
          rw [h1, h2, h3]
          cases cfg.save <;> simp <;> omega
  | .cost v t :: es, st, h => by
    have hd : deref (st.heap ++ [v]) st.heap.length = v := by simp [deref]
    simp only [run, step, evaluations, gradientEvaluations] at h ⊢
    by_cases ht : cfg.maxWall < t
    · simp [costWrapper, ht]
    rw [if_neg ht, if_neg ht]
    cases hy : unflatten cfg.T cfg.C v with
    | error e => simp [costWrapper, ht, hd, hy] at h
    | ok y =>
      cases hv : cfg.sim st.calls y with
      | error e => simp [costWrapper, ht, hd, hy, hv] at h
      | ok c =>
        obtain ⟨st', hr, h1, h2⟩ := costWrapper_ok cfg st v t y c ht hy hv
        have hn := costWrapper_nJac cfg { st with heap := st.heap ++ [v] } st.heap.length t
        cases hw : weigh cfg.weights c with
        | error e => rw [(h2 e hw).2] at h; simp at h
        | ok c' =>
          rw [(h1 c' hw).2] at h hn ⊢
          obtain ⟨k1, k2, k3⟩ := run_counts cfg es st' h
          simp only at hn
          simp only [k1, k2, k3, (h1 c' hw).1, hr.2.1, hn, hv, hw, List.length_cons]
          exact ⟨by omega, trivial, by omega⟩

/-- The lengths of the recorded lists, after every history. -/
theorem run_lengths (cfg : Cfg) (hs : cfg.save = true) : ∀ (es : List Event) (st : St cfg.F cfg.C),
    (run cfg st es).2.iterNum = st.iterNum + (evaluations cfg st.calls es).length ∧
    (run cfg st es).2.costs.length = st.costs.length + (evaluations cfg st.calls es).length ∧
    (run cfg st es).2.pars.length = st.pars.length + (evaluations cfg st.calls es).length
  | [], st => by simp [run, evaluations]
  | .write a v :: es, st => by
    simp only [run, step, evaluations]
    exact run_lengths cfg hs es _
  | .jac v :: es, st => by
    obtain ⟨f1, f2, f3, f4, f5, f6⟩ := jacWrapper_frame cfg st v
    rcases hj : jacWrapper cfg st v with ⟨r, st1⟩
    rw [hj] at f1 f2 f3 f4 f5 f6
    simp only at f1 f2 f3 f4 f5 f6
    rcases jacWrapper_cases cfg st v es with ⟨e, c1, c2⟩ | ⟨j, c1, c2, c3⟩
    · rw [hj] at c1
      simp only at c1
      subst c1
      simp [run, step, hj, c2, f2, f3, f4]
    · rw [hj] at c1 c2
      simp only at c1
      subst c1
      obtain ⟨k1, k2, k3⟩ := run_lengths cfg hs es st1
      simp only at c2
      simp only [run, step, hj, c3, k1, k2, k3, f2, f3, f4, c2, and_self]
  | .cost v t :: es, st => by
    have hd : deref (st.heap ++ [v]) st.heap.length = v := by simp [deref]
    simp only [run, step, evaluations]
    by_cases ht : cfg.maxWall < t
    · simp [costWrapper, ht]
    rw [if_neg ht]
    cases hy : unflatten cfg.T cfg.C v with
    | error e => simp [costWrapper, ht, hd, hy]
    | ok y =>
      cases hv : cfg.sim st.calls y with
      | error e => simp [costWrapper, ht, hd, hy, hv]
      | ok c =>
        obtain ⟨st', hr, h1, h2⟩ := costWrapper_ok cfg st v t y c ht hy hv
        obtain ⟨r1, r2, r3⟩ := hr.2.2.1 hs
        cases hw : weigh cfg.weights c with
        | error e => rw [(h2 e hw).2]; simp [r1, r2, r3, hv, hw]
        | ok c' =>
          rw [(h1 c' hw).2]
          obtain ⟨k1, k2, k3⟩ := run_lengths cfg hs es st'
          simp only [k1, k2, k3, r1, r2, r3, hr.2.1, hv, hw, List.length_cons, List.length_append, List.length_nil]
          omega

/-! ## Theorems -/

/-- **C120** As long as neither the simulator nor numpy raises, the counters of the optimizer are the numbers of evaluations of the costs
and of the Jacobian since `prepare_optimization`, and the simulator has been called exactly that often. -/
theorem c120_counts (cfg : Cfg) (es : List Event) (h : ∀ e, (run cfg (prepared cfg.F cfg.C) es).1 ≠ some (.py e)) :
    let st := (run cfg (prepared cfg.F cfg.C) es).2
    st.nCost = (evaluations cfg 0 es).length ∧ st.nJac = (gradientEvaluations cfg 0 es).length ∧
      st.calls = (evaluations cfg 0 es).length + (gradientEvaluations cfg 0 es).length := by
  obtain ⟨h1, h2, h3⟩ := run_counts cfg es (prepared cfg.F cfg.C) h
  simp only [prepared, Nat.zero_add] at h1 h2 h3 ⊢
  exact ⟨h1, h2, h3⟩

/-- **C120** The number of iterations in the result of a timed-out optimisation is the number of evaluations of the costs and, if the
steps are saved, the length of the lists in its summary.  Producing the result evaluates the Jacobian once more when Jacobians are
used: the list of gradients then has one entry more than the optimiser has asked for. -/
theorem c120_result (cfg : Cfg) (es : List Event) (st : St cfg.F cfg.C) (hrun : run cfg (prepared cfg.F cfg.C) es = (some .wallTime, st))
    (r : TimeoutResult cfg.C) (st' : St cfg.F cfg.C) (hr : writeState cfg st = (.ok r, st')) :
    r.numIter = (evaluations cfg 0 es).length ∧ r.status = 5 ∧
    (cfg.save = true → st'.iterNum = r.numIter ∧ st'.costs.length = r.numIter ∧ st'.pars.length = r.numIter) ∧
    (cfg.useJac = false → st' = st ∧ (cfg.save = true → st'.gradients = gradientEvaluations cfg 0 es)) ∧
    (cfg.useJac = true → st'.nJac = (gradientEvaluations cfg 0 es).length + 1 ∧
      (cfg.save = true → ∃ y J, cfg.jac st.calls y = .ok J ∧ st'.gradients = gradientEvaluations cfg 0 es ++ [J])) := by
  have hc := c120_counts cfg es (by rw [hrun]; simp)
  rw [hrun] at hc
  obtain ⟨hc1, hc2, hc3⟩ := hc
  have hl : cfg.save = true → st.iterNum = (evaluations cfg 0 es).length ∧ st.costs.length = (evaluations cfg 0 es).length ∧
      st.pars.length = (evaluations cfg 0 es).length := fun hs => by
    have := run_lengths cfg hs es (prepared cfg.F cfg.C)
    rw [hrun] at this
    simpa [prepared] using this
  have hg : cfg.save = true → st.gradients = gradientEvaluations cfg 0 es := fun hs => by
    have := c60_gradients_partial cfg hs es
    rw [hrun] at this
    exact this
  unfold writeState at hr
  cases hu : cfg.useJac with
  | false =>
    simp only [hu, Prod.mk.injEq, Except.ok.injEq] at hr
    obtain ⟨rfl, rfl⟩ := hr
    exact ⟨hc1, rfl, fun hs => by rw [hc1]; exact hl hs, fun _ => ⟨rfl, hg⟩, by simp⟩
  | true =>
    simp only [hu] at hr
    cases hm : st.minPar with
    | none => simp [hm] at hr
    | some a =>
      simp only [hm] at hr
      have key : ∀ (v : List ℝ) (j : List ℝ) (s1 : St cfg.F cfg.C), ownJac cfg st v = (.ok j, s1) →
          s1.nCost = st.nCost ∧ s1.iterNum = st.iterNum ∧ s1.costs = st.costs ∧ s1.pars = st.pars ∧ s1.nJac = st.nJac + 1 ∧
          (cfg.save = true → ∃ y J, cfg.jac st.calls y = .ok J ∧ s1.gradients = st.gradients ++ [J]) := by
        intro v j s1 hj
        have hw : ∃ j', jacWrapper cfg st v = (.ok j', s1) := by
          unfold ownJac scalarJac at hj
          cases hsc : cfg.scalar <;> simp only [hsc] at hj <;> rcases hjw : jacWrapper cfg st v with ⟨_ | j', s2⟩ <;>
            simp only [hjw, Prod.mk.injEq, reduceCtorEq, false_and] at hj
          · exact ⟨j', by rw [hj.2]⟩
          · exact ⟨j', by rw [hj.2]⟩
        obtain ⟨j', hw⟩ := hw
        unfold jacWrapper at hw
        cases hy : unflatten cfg.T cfg.C v with
        | error e => simp [hy] at hw
        | ok y =>
          simp only [hy] at hw
          cases hJ : cfg.jac st.calls y with
          | error e => simp [hJ] at hw
          | ok J =>
            simp only [hJ] at hw
            cases hk : weighJac cfg.weights (flattenJac J) with
            | error e => simp [hk] at hw
            | ok k =>
              simp only [hk, Prod.mk.injEq] at hw
              obtain ⟨-, rfl⟩ := hw
              refine ⟨by cases cfg.save <;> rfl, by cases cfg.save <;> rfl, by cases cfg.save <;> rfl, by cases cfg.save <;> rfl,
                by cases cfg.save <;> rfl, fun hs => ⟨y, J, hJ, by simp [hs]⟩⟩
      rcases hj : ownJac cfg st (rowMajor (viewPar cfg st a)) with ⟨_ | j, s1⟩
      · simp [hj] at hr
      · simp only [hj, Prod.mk.injEq, Except.ok.injEq] at hr
        obtain ⟨rfl, rfl⟩ := hr
        obtain ⟨k1, k2, k3, k4, k5, k6⟩ := key _ _ _ hj
        refine ⟨k1.trans hc1, rfl, fun hs => ?_, by simp, fun _ => ⟨by rw [k5, hc2], fun hs => ?_⟩⟩
        · simp only [k1, k2, k3, k4]; simp only at hc1; rw [hc1]; exact hl hs
        · obtain ⟨y, J, q1, q2⟩ := k6 hs
          exact ⟨y, J, q1, by rw [q2, hg hs]⟩

/-! ## Examples -/

/-- `c120_counts` and `c120_result` apply: three evaluations of the costs and one of the Jacobian before the time limit. -/
example : ∃ (st st' : St 1 1) (r : TimeoutResult 1), run (identityCfg none) (prepared 1 1) history = (some .wallTime, st) ∧
    writeState (identityCfg none) st = (.ok r, st') ∧ st.nCost = 3 ∧ st.nJac = 1 ∧ r.numIter = 3 ∧ st'.costs.length = 3 ∧
    st'.gradients.length = 2 := by
  obtain ⟨st, st', r, h1, h2, -⟩ := history_timeout
  have hc := c120_counts (identityCfg none) history (by erw [h1]; simp)
  erw [h1] at hc
  obtain ⟨c1, c2, -⟩ := hc
  obtain ⟨d1, -, d3, -, d5⟩ := c120_result (identityCfg none) history st h1 r st' h2
  have hg : gradientEvaluations (identityCfg none) 0 history = [[fun _ _ => 1]] := history_gradients
  rw [history_evaluations] at c1 d1
  rw [hg] at c2
  obtain ⟨-, y, J, -, q⟩ : _ ∧ ∃ y J, _ ∧ _ := ⟨trivial, (d5 rfl).2 rfl⟩
  exact ⟨st, st', r, h1, h2, c1, c2, d1, by rw [(d3 rfl).2.1, d1]; rfl, by rw [q, hg]; rfl⟩

end Verif.Optim
