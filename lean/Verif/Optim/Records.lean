import Verif.Optim.Flatten
import Mathlib.Tactic.NormNum

/-!
# C60, C61, C63: the records of the optimizer
-/

namespace Verif.Optim
open Verif Verif.Transfer

/-! ## Specification -/

/-- Specification: the evaluations of a history, as pairs of a pulse and the cost values the simulator returned for it; the
history ends with the first exception. -/
noncomputable def evaluations (cfg : Cfg) : Nat → List Event → List (Pulse ℝ cfg.C × List ℝ)
  | _, [] => []
  | n, .cost v elapsed :: es =>
    if cfg.maxWall < elapsed then []
    else match unflatten cfg.T cfg.C v with
      | .error _ => []
      | .ok y => match cfg.sim n y with
        | .error _ => []
        | .ok c => (y, c) :: match weigh cfg.weights c with
          | .error _ => []
          | .ok _ => evaluations cfg (n + 1) es
  | n, .jac v :: es =>
    match unflatten cfg.T cfg.C v with
    | .error _ => []
    | .ok y => match cfg.jac n y with
      | .error _ => []
      | .ok J => match weighJac cfg.weights (flattenJac J) with
        | .error _ => []
        | .ok _ => evaluations cfg (n + 1) es
  | n, .write _ _ :: es => evaluations cfg n es

/-- Specification: position `k` holds the first occurrence of the smallest value. -/
def FirstMin (l : List ℝ) (k : Nat) : Prop :=
  ∃ m, l[k]? = some m ∧ ∀ (i : Nat) (x : ℝ), l[i]? = some x → m ≤ x ∧ (i < k → m < x)

/-- The caller does not write into arrays it shares with the optimizer. -/
def Event.isWrite : Event → Bool
  | .write _ _ => true
  | _ => false

/-- What the in-place multiplication leaves in the array of costs. -/
noncomputable def stored (w : Option (List ℝ)) (v : List ℝ) : List ℝ :=
  match weigh w v with
  | .ok v' => v'
  | .error _ => v

theorem stored_none (v : List ℝ) : stored none v = v := rfl

/-! ## Invariant -/

/-- The records agree with the evaluations `tr` so far. -/
structure Inv (cfg : Cfg) (st : St cfg.F cfg.C) (tr : List (Pulse ℝ cfg.C × List ℝ)) : Prop where
  costs : cfg.save = true → st.costs.map (deref st.heap) = tr.map fun e => stored cfg.weights e.2
  costsLt : ∀ a ∈ st.costs, a < st.heap.length
  pars : cfg.save = true → st.pars.map (fun a => unflatten cfg.T cfg.C (deref st.heap a)) = tr.map fun e => Except.ok e.1
  parsLt : ∀ a ∈ st.pars, a < st.heap.length
  iter : cfg.save = true → st.iterNum = tr.length
  min : (tr = [] ∧ st.minCosts = none ∧ st.minPar = none) ∨
    ∃ (k : Nat) (e : Pulse ℝ cfg.C × List ℝ) (a b : Nat), tr[k]? = some e ∧ st.minCosts = some a ∧ st.minPar = some b ∧
      a < st.heap.length ∧ b < st.heap.length ∧ deref st.heap a = stored cfg.weights e.2 ∧
      unflatten cfg.T cfg.C (deref st.heap b) = .ok e.1 ∧ (cfg.weights = none → FirstMin (tr.map fun e => norm e.2) k)

theorem deref_append (h l : List (List ℝ)) (a : Nat) (ha : a < h.length) : deref (h ++ l) a = deref h a := by
  simp [deref, List.getElem?_append_left ha]

theorem map_deref_append (h l : List (List ℝ)) (as : List Nat) (ha : ∀ a ∈ as, a < h.length) :
    as.map (deref (h ++ l)) = as.map (deref h) :=
  List.map_congr_left fun a m => deref_append h l a (ha a m)

theorem prepared_inv (cfg : Cfg) : Inv cfg (prepared cfg.F cfg.C) [] :=
  { costs := fun _ => rfl, costsLt := by simp [prepared], pars := fun _ => rfl, parsLt := by simp [prepared], iter := fun _ => rfl,
    min := Or.inl ⟨rfl, rfl, rfl⟩ }

/-- New arrays, counters and gradients do not touch the records. -/
theorem Inv.grow {cfg : Cfg} {st st' : St cfg.F cfg.C} {tr} (h : Inv cfg st tr) (l : List (List ℝ)) (h1 : st'.heap = st.heap ++ l)
    (h2 : st'.costs = st.costs) (h3 : st'.pars = st.pars) (h4 : st'.iterNum = st.iterNum) (h5 : st'.minCosts = st.minCosts)
    (h6 : st'.minPar = st.minPar) : Inv cfg st' tr := by
  refine ⟨fun hs => ?_, fun a ha => ?_, fun hs => ?_, fun a ha => ?_, fun hs => by rw [h4, h.iter hs], ?_⟩
  · rw [h1, h2, map_deref_append _ _ _ h.costsLt, h.costs hs]
  · rw [h1, List.length_append]; rw [h2] at ha; have := h.costsLt a ha; omega
  · rw [h1, h3, ← h.pars hs]
    exact List.map_congr_left fun a m => by rw [deref_append _ _ _ (h.parsLt a m)]
  · rw [h1, List.length_append]; rw [h3] at ha; have := h.parsLt a ha; omega
  · rcases h.min with ⟨a, b, c⟩ | ⟨k, e, a, b, q1, q2, q3, q4, q5, q6, q7, q8⟩
    · exact Or.inl ⟨a, h5.trans b, h6.trans c⟩
    · refine Or.inr ⟨k, e, a, b, q1, h5.trans q2, h6.trans q3, ?_, ?_, ?_, ?_, q8⟩
      · rw [h1, List.length_append]; omega
      · rw [h1, List.length_append]; omega
      · rw [h1, deref_append _ _ _ q4, q6]
      · rw [h1, deref_append _ _ _ q5, q7]

theorem FirstMin.keep {l : List ℝ} {k : Nat} {m x : ℝ} (h : FirstMin l k) (hm : l[k]? = some m) (hx : ¬ x < m) :
    FirstMin (l ++ [x]) k := by
  obtain ⟨m', e, h⟩ := h
  rw [hm] at e; cases e
  have hk : k < l.length := (List.getElem?_eq_some_iff.1 hm).1
  refine ⟨m, by rw [List.getElem?_append_left hk, hm], fun i z hz => ?_⟩
  by_cases hi : i < l.length
  · rw [List.getElem?_append_left hi] at hz
    exact h i z hz
  · rw [List.getElem?_append_right (by omega)] at hz
    have hi' : i - l.length = 0 := by
      by_contra hne
      rw [List.getElem?_eq_none (by simp; omega)] at hz
      cases hz
    rw [hi'] at hz
    simp at hz
    subst hz
    exact ⟨not_lt.1 hx, fun hlt => by omega⟩

theorem FirstMin.take {l : List ℝ} {x : ℝ} (h : ∀ y ∈ l, x < y) : FirstMin (l ++ [x]) l.length := by
  refine ⟨x, by simp, fun i z hz => ?_⟩
  by_cases hi : i < l.length
  · rw [List.getElem?_append_left hi] at hz
    have := h z (List.mem_of_getElem? hz)
    exact ⟨this.le, fun _ => this⟩
  · rw [List.getElem?_append_right (by omega)] at hz
    have hi' : i - l.length = 0 := by
      by_contra hne
      rw [List.getElem?_eq_none (by simp; omega)] at hz
      cases hz
    rw [hi'] at hz
    simp at hz
    subst hz
    exact ⟨le_rfl, fun hlt => by omega⟩

/-- The state a completed evaluation leaves. -/
def Recorded (cfg : Cfg) (st st' : St cfg.F cfg.C) (x v : List ℝ) : Prop :=
  st'.heap = st.heap ++ [x, stored cfg.weights v] ∧ st'.calls = st.calls + 1 ∧
  (cfg.save = true → st'.costs = st.costs ++ [st.heap.length + 1] ∧ st'.pars = st.pars ++ [st.heap.length] ∧ st'.iterNum = st.iterNum + 1) ∧
  (cfg.save = false → st'.costs = st.costs ∧ st'.pars = st.pars) ∧
  ((better (st.heap ++ [x] ++ [v]) v st.minCosts ∧ st'.minCosts = some (st.heap.length + 1) ∧ st'.minPar = some st.heap.length) ∨
    (¬ better (st.heap ++ [x] ++ [v]) v st.minCosts ∧ st'.minCosts = st.minCosts ∧ st'.minPar = st.minPar))

theorem inv_recorded {cfg : Cfg} {st st' : St cfg.F cfg.C} {tr} {x v : List ℝ} {y : Pulse ℝ cfg.C} (h : Inv cfg st tr)
    (hy : unflatten cfg.T cfg.C x = .ok y) (hr : Recorded cfg st st' x v) : Inv cfg st' (tr ++ [(y, v)]) := by
  obtain ⟨r1, r2, r3, r3', r4⟩ := hr
  have d1 : deref st'.heap (st.heap.length + 1) = stored cfg.weights v := by simp [r1, deref]
  have d2 : deref st'.heap st.heap.length = x := by simp [r1, deref]
  have dl : st'.heap.length = st.heap.length + 2 := by simp [r1]
  refine ⟨fun hs => ?_, fun a ha => ?_, fun hs => ?_, fun a ha => ?_, fun hs => ?_, ?_⟩
  · rw [(r3 hs).1, List.map_append, List.map_append, ← h.costs hs]
    simp only [List.map_cons, List.map_nil, d1]
    rw [r1, map_deref_append _ _ _ h.costsLt]
  · cases hsv : cfg.save with
    | true =>
      rw [(r3 hsv).1, List.mem_append] at ha
      rcases ha with ha | ha
      · have := h.costsLt a ha; omega
      · simp at ha; omega
    | false => rw [(r3' hsv).1] at ha; have := h.costsLt a ha; omega
  · rw [(r3 hs).2.1, List.map_append, List.map_append, ← h.pars hs]
    simp only [List.map_cons, List.map_nil, d2, hy]
    congr 1
    exact List.map_congr_left fun a m => by rw [r1, deref_append _ _ _ (h.parsLt a m)]
  · cases hsv : cfg.save with
    | true =>
      rw [(r3 hsv).2.1, List.mem_append] at ha
      rcases ha with ha | ha
      · have := h.parsLt a ha; omega
      · simp at ha; omega
    | false => rw [(r3' hsv).2] at ha; have := h.parsLt a ha; omega
  · rw [(r3 hs).2.2, h.iter hs]; simp
  · right
    rcases r4 with ⟨b, m1, m2⟩ | ⟨b, m1, m2⟩
    · refine ⟨tr.length, (y, v), st.heap.length + 1, st.heap.length, by simp, m1, m2, by omega, by omega, d1, by rw [d2, hy], ?_⟩
      intro hw
      rw [List.map_append]
      have := FirstMin.take (l := tr.map fun e => norm e.2) (x := norm v) ?_
      · simpa using this
      · rcases h.min with ⟨rfl, _, _⟩ | ⟨k, e, a, b', q1, q2, q3, q4, q5, q6, q7, q8⟩
        · simp
        · rw [q2] at b
          simp only [better, List.append_assoc] at b
          rw [deref_append _ _ _ q4, q6, hw, stored_none] at b
          obtain ⟨m, hm, hall⟩ := q8 hw
          rw [List.getElem?_map, q1] at hm
          cases hm
          intro z hz
          obtain ⟨i, hi⟩ := List.getElem?_of_mem hz
          exact lt_of_lt_of_le b (hall i z hi).1
    · rcases h.min with ⟨_, h2, _⟩ | ⟨k, e, a, b', q1, q2, q3, q4, q5, q6, q7, q8⟩
      · rw [h2] at b; exact absurd trivial b
      · have hk : k < tr.length := (List.getElem?_eq_some_iff.1 q1).1
        refine ⟨k, e, a, b', by rw [List.getElem?_append_left hk, q1], m1.trans q2, m2.trans q3, by omega, by omega, ?_, ?_, ?_⟩
        · rw [r1, deref_append _ _ _ q4, q6]
        · rw [r1, deref_append _ _ _ q5, q7]
        · intro hw
          rw [List.map_append]
          refine FirstMin.keep (q8 hw) (m := norm e.2) (by rw [List.getElem?_map, q1]; rfl) ?_
          rw [q2] at b
          simp only [better, List.append_assoc] at b
          rw [deref_append _ _ _ q4, q6, hw, stored_none] at b
          exact b

theorem costWrapper_ok (cfg : Cfg) (st : St cfg.F cfg.C) (x : List ℝ) (elapsed : ℝ) (y : Pulse ℝ cfg.C) (v : List ℝ)
    (ht : ¬ cfg.maxWall < elapsed) (hy : unflatten cfg.T cfg.C x = .ok y) (hv : cfg.sim st.calls y = .ok v) :
    ∃ st', Recorded cfg st st' x v ∧
      (∀ v', weigh cfg.weights v = .ok v' → st'.nCost = st.nCost + 1 ∧
        costWrapper cfg { st with heap := st.heap ++ [x] } st.heap.length elapsed = (.ok (st.heap.length + 1), st')) ∧
      (∀ e, weigh cfg.weights v = .error e → st'.nCost = st.nCost ∧
        costWrapper cfg { st with heap := st.heap ++ [x] } st.heap.length elapsed = (.error (.py e), st')) := by
  have hd : deref (st.heap ++ [x]) st.heap.length = x := by simp [deref]
  cases hw : weigh cfg.weights v with
  | ok v' =>
    have hs : stored cfg.weights v = v' := by simp [stored, hw]
    by_cases hb : better (st.heap ++ [x] ++ [v]) v st.minCosts <;> cases hsv : cfg.save
    all_goals
      simp only [List.append_assoc, List.cons_append, List.nil_append] at hb
      simp [costWrapper, ht, hd, hy, hv, hb, hw, hsv, Recorded, hs]
  | error e =>
    have hs : stored cfg.weights v = v := by simp [stored, hw]
    by_cases hb : better (st.heap ++ [x] ++ [v]) v st.minCosts <;> cases hsv : cfg.save
    all_goals
      simp only [List.append_assoc, List.cons_append, List.nil_append] at hb
      simp [costWrapper, ht, hd, hy, hv, hb, hw, hsv, Recorded, hs]

theorem jacWrapper_frame (cfg : Cfg) (st : St cfg.F cfg.C) (v : List ℝ) :
    (jacWrapper cfg st v).2.heap = st.heap ∧ (jacWrapper cfg st v).2.costs = st.costs ∧ (jacWrapper cfg st v).2.pars = st.pars ∧
      (jacWrapper cfg st v).2.iterNum = st.iterNum ∧ (jacWrapper cfg st v).2.minCosts = st.minCosts ∧
      (jacWrapper cfg st v).2.minPar = st.minPar := by
  unfold jacWrapper
  split
  · simp
  · split
    · simp
    · simp only
      split <;> split <;> simp

theorem jacWrapper_cases (cfg : Cfg) (st : St cfg.F cfg.C) (v : List ℝ) (es : List Event) :
    (∃ e, (jacWrapper cfg st v).1 = .error e ∧ evaluations cfg st.calls (.jac v :: es) = []) ∨
      ∃ j, (jacWrapper cfg st v).1 = .ok j ∧ (jacWrapper cfg st v).2.calls = st.calls + 1 ∧
        evaluations cfg st.calls (.jac v :: es) = evaluations cfg (st.calls + 1) es := by
  simp only [jacWrapper, evaluations]
  cases hy : unflatten cfg.T cfg.C v with
  | error e => simp
  | ok y =>
    simp only
    cases hJ : cfg.jac st.calls y with
    | error e => simp
    | ok J =>
      simp only
      cases hj : weighJac cfg.weights (flattenJac J) with
      | error e => simp
      | ok j => right; cases cfg.save <;> simp

theorem run_inv (cfg : Cfg) : ∀ (es : List Event) (st : St cfg.F cfg.C) (tr), Inv cfg st tr → (∀ e ∈ es, e.isWrite = false) →
    Inv cfg (run cfg st es).2 (tr ++ evaluations cfg st.calls es)
  | [], st, tr, h, _ => by simpa [run, evaluations] using h
  | .write a v :: es, st, tr, h, hw => by simpa [Event.isWrite] using hw (.write a v) (by simp)
  | .jac v :: es, st, tr, h, hw => by
    have hw' : ∀ e ∈ es, e.isWrite = false := fun e he => hw e (by simp [he])
    obtain ⟨f1, f2, f3, f4, f5, f6⟩ := jacWrapper_frame cfg st v
    rcases hj : jacWrapper cfg st v with ⟨r, st1⟩
    rw [hj] at f1 f2 f3 f4 f5 f6
    have h1 : Inv cfg st1 tr := h.grow [] (by simpa using f1) f2 f3 f4 f5 f6
    rcases jacWrapper_cases cfg st v es with ⟨e, c1, c2⟩ | ⟨j, c1, c2, c3⟩
    · rw [hj] at c1
      subst c1
      rw [c2]
      simpa [run, step, hj] using h1
    · rw [hj] at c1 c2
      subst c1
      rw [c3, ← c2]
      simpa [run, step, hj] using run_inv cfg es st1 tr h1 hw'
  | .cost v t :: es, st, tr, h, hw => by
    have hw' : ∀ e ∈ es, e.isWrite = false := fun e he => hw e (by simp [he])
    have hd : deref (st.heap ++ [v]) st.heap.length = v := by simp [deref]
    unfold run step evaluations
    by_cases ht : cfg.maxWall < t
    · simp only [costWrapper, ht, if_true, List.append_nil]
      exact h.grow [v] rfl rfl rfl rfl rfl rfl
    rw [if_neg ht]
    cases hy : unflatten cfg.T cfg.C v with
    | error e =>
      simp only [costWrapper, ht, if_false, hd, hy, List.append_nil]
      exact h.grow [v] rfl rfl rfl rfl rfl rfl
    | ok y =>
      cases hv : cfg.sim st.calls y with
      | error e =>
        simp only [costWrapper, ht, if_false, hd, hy, hv, List.append_nil]
        exact h.grow [v] rfl rfl rfl rfl rfl rfl
      | ok c =>
        obtain ⟨st', hr, h1, h2⟩ := costWrapper_ok cfg st v t y c ht hy hv
        have hi := inv_recorded h hy hr
        dsimp only
        cases hg : weigh cfg.weights c with
        | error e =>
          rw [(h2 e hg).2]
          simpa [hv, hg] using hi
        | ok c' =>
          rw [(h1 c' hg).2]
          have := run_inv cfg es st' _ hi hw'
          rw [hr.2.1] at this
          simpa [hv, hg] using this

/-! ## C60 -/

/-- The costs and the parameters in the summary, as a user reads them. -/
def recordedCosts {F C : Nat} (st : St F C) : List (List ℝ) := st.costs.map (deref st.heap)
@[inherit_doc recordedCosts]
def recordedPars (cfg : Cfg) (st : St cfg.F cfg.C) : List (Pulse ℝ cfg.C) := st.pars.map (viewPar cfg st)

theorem pars_of_inv {cfg : Cfg} {st : St cfg.F cfg.C} {tr} (h : Inv cfg st tr) (hs : cfg.save = true) :
    recordedPars cfg st = tr.map Prod.fst := by
  have := h.pars hs
  have e : recordedPars cfg st = (st.pars.map fun a => unflatten cfg.T cfg.C (deref st.heap a)).map
      (fun r => match r with | .ok y => y | .error _ => []) := by
    rw [List.map_map]; rfl
  rw [e, this, List.map_map]
  rfl

/-- **C60** (partial): without weights, and when the caller leaves the arrays it shares with the optimizer alone, the summary
holds in order the costs the simulator returned and the pulses they belong to, after every history (also one that ends with an
exception).  Missing: with weights the recorded costs are the weighted ones (`c60_weights_partial`, `c60_violated_weights`), and a caller
that reuses its vector changes the recorded parameters (`c60_violated_reuse`). -/
theorem c60_recorded_partial (cfg : Cfg) (hs : cfg.save = true) (hw : cfg.weights = none) (es : List Event)
    (hn : ∀ e ∈ es, e.isWrite = false) :
    let st := (run cfg (prepared cfg.F cfg.C) es).2
    recordedCosts st = (evaluations cfg 0 es).map Prod.snd ∧ recordedPars cfg st = (evaluations cfg 0 es).map Prod.fst ∧
      st.iterNum = (evaluations cfg 0 es).length := by
  have h := run_inv cfg es _ [] (prepared_inv cfg) hn
  simp only [List.nil_append] at h
  refine ⟨?_, pars_of_inv h hs, h.iter hs⟩
  have := h.costs hs
  rw [hw] at this
  exact this

/-- **C60** (partial): with weights the parameters are recorded correctly, but each recorded array of costs holds the weighted
values. -/
theorem c60_weights_partial (cfg : Cfg) (hs : cfg.save = true) (w : List ℝ) (hw : cfg.weights = some w) (hw1 : w.length ≠ 1)
    (es : List Event) (hn : ∀ e ∈ es, e.isWrite = false) :
    let st := (run cfg (prepared cfg.F cfg.C) es).2
    recordedPars cfg st = (evaluations cfg 0 es).map Prod.fst ∧
      ∀ (i : Nat) (c : List ℝ), ((evaluations cfg 0 es).map Prod.snd)[i]? = some c → c.length = w.length →
        (recordedCosts st)[i]? = some (List.zipWith (· * ·) c w) := by
  have h := run_inv cfg es _ [] (prepared_inv cfg) hn
  change Inv cfg _ (evaluations cfg 0 es) at h
  refine ⟨pars_of_inv h hs, fun i c hc hl => ?_⟩
  unfold recordedCosts
  rw [h.costs hs, hw]
  rw [List.getElem?_map] at hc ⊢
  obtain ⟨e, he, rfl⟩ := Option.map_eq_some_iff.1 hc
  rw [he]
  have : weigh (some w) e.2 = .ok (List.zipWith (· * ·) e.2 w) := by
    match w, hw1 with
    | [], _ => simp [weigh, hl.symm]
    | a :: b :: w, _ => simp only [weigh]; rw [if_pos hl.symm]
  simp [stored, this]

/-- Specification: the Jacobians the simulator returned during a history, which ends with the first exception. -/
noncomputable def gradientEvaluations (cfg : Cfg) : Nat → List Event → List (Grads ℝ cfg.F cfg.C)
  | _, [] => []
  | n, .cost v elapsed :: es =>
    if cfg.maxWall < elapsed then []
    else match unflatten cfg.T cfg.C v with
      | .error _ => []
      | .ok y => match cfg.sim n y with
        | .error _ => []
        | .ok c => match weigh cfg.weights c with
          | .error _ => []
          | .ok _ => gradientEvaluations cfg (n + 1) es
  | n, .jac v :: es =>
    match unflatten cfg.T cfg.C v with
    | .error _ => []
    | .ok y => match cfg.jac n y with
      | .error _ => []
      | .ok J => J :: match weighJac cfg.weights (flattenJac J) with
        | .error _ => []
        | .ok _ => gradientEvaluations cfg (n + 1) es
  | n, .write _ _ :: es => gradientEvaluations cfg n es

theorem run_gradients (cfg : Cfg) (hs : cfg.save = true) : ∀ (es : List Event) (st : St cfg.F cfg.C),
    (run cfg st es).2.gradients = st.gradients ++ gradientEvaluations cfg st.calls es
  | [], st => by simp [run, gradientEvaluations]
  | .write a v :: es, st => by
    simp only [run, step, gradientEvaluations]
    exact run_gradients cfg hs es _
  | .jac v :: es, st => by
    simp only [run, step, jacWrapper, gradientEvaluations]
    cases unflatten cfg.T cfg.C v with
    | error e => simp
    | ok y =>
      simp only
      cases cfg.jac st.calls y with
      | error e => simp
      | ok J =>
        simp only [hs, if_true]
        cases weighJac cfg.weights (flattenJac J) with
        | error e => simp
        | ok j =>
          simp only
          rw [run_gradients cfg hs es]
          simp
  | .cost v t :: es, st => by
    have hd : deref (st.heap ++ [v]) st.heap.length = v := by simp [deref]
    simp only [run, step, gradientEvaluations]
    by_cases ht : cfg.maxWall < t
    · simp [costWrapper, ht]
    rw [if_neg ht]
    cases hy : unflatten cfg.T cfg.C v with
    | error e => simp [costWrapper, ht, hd, hy]
    | ok y =>
      cases hv : cfg.sim st.calls y with
      | error e => simp [costWrapper, ht, hd, hy, hv]
      | ok c =>
        simp only [costWrapper, ht, if_false, hd, hy, hv, hs, if_true]
        cases hg : weigh cfg.weights c with
        | error e => simp only [apply_ite St.gradients, ite_self, List.append_nil]
        | ok c' =>
          simp only
          rw [run_gradients cfg hs es]
          simp only [apply_ite St.gradients, apply_ite St.calls, ite_self]

/-- **C60** (partial): the gradients of the summary are, in order, the Jacobians the simulator returned (before any weights), after
every history (also when the caller overwrites the vectors). -/
theorem c60_gradients_partial (cfg : Cfg) (hs : cfg.save = true) (es : List Event) :
    (run cfg (prepared cfg.F cfg.C) es).2.gradients = gradientEvaluations cfg 0 es :=
  run_gradients cfg hs es _

/-! ## C61 -/

/-- **C61** (partial): without weights, the stored minimal costs and parameters are those of the first evaluation with the
smallest norm of the costs; nothing is stored exactly when nothing was evaluated.  Missing: weights, see `c61_violated`. -/
theorem c61_best_partial (cfg : Cfg) (hw : cfg.weights = none) (es : List Event) (hn : ∀ e ∈ es, e.isWrite = false) :
    let st := (run cfg (prepared cfg.F cfg.C) es).2
    let tr := evaluations cfg 0 es
    (tr = [] ∧ st.minCosts = none ∧ st.minPar = none) ∨
      ∃ (k : Nat) (e : Pulse ℝ cfg.C × List ℝ), tr[k]? = some e ∧ FirstMin (tr.map fun e => norm e.2) k ∧
        st.minCosts.map (deref st.heap) = some e.2 ∧ st.minPar.map (viewPar cfg st) = some e.1 := by
  have h := run_inv cfg es _ [] (prepared_inv cfg) hn
  simp only [List.nil_append] at h
  rcases h.min with h | ⟨k, e, a, b, q1, q2, q3, q4, q5, q6, q7, q8⟩
  · exact Or.inl h
  · refine Or.inr ⟨k, e, q1, q8 hw, ?_, ?_⟩
    · rw [q2, Option.map_some, q6, hw, stored_none]
    · rw [q3, Option.map_some]; simp [viewPar, q7]

/-! ## C63 -/

theorem rowMajor_eq_flattenT {C : Nat} (y : Pulse ℝ C) (h : y.length = 1 ∨ C = 1) : rowMajor y = flattenT y := by
  rcases h with h | h
  · obtain ⟨r, rfl⟩ := List.length_eq_one_iff.1 h
    simp [rowMajor, flattenT, List.ofFn_eq_map, List.flatMap_def]
    rw [show (fun c => [r c]) = List.singleton ∘ r from rfl, ← List.map_map]
    generalize List.map r (List.finRange C) = l
    induction l with
    | nil => rfl
    | cons a l ih => simp [List.singleton, ← ih]
  · subst h
    simp [rowMajor, flattenT, List.flatMap_def, List.finRange_succ]
    induction y with
    | nil => rfl
    | cons r y ih => simp [List.ofFn_succ] at ih ⊢; exact ih

/-- **C63** (partial): for pulses with a single time step or a single control, without weights, after any history that is ended
by the time limit and contains an evaluation, the result holds the first best parameters, their costs, and the norm of what the
Jacobian wrapper returns for the vector of exactly those parameters.  Missing: other shapes (`c63_violated_shape`), weights
(`c61_violated`) and histories without a completed evaluation (`c63_violated_early`). -/
theorem c63_timeout_partial (cfg : Cfg) (hw : cfg.weights = none) (hTC : cfg.T = 1 ∨ cfg.C = 1) (es : List Event)
    (hn : ∀ e ∈ es, e.isWrite = false) (st : St cfg.F cfg.C) (hrun : run cfg (prepared cfg.F cfg.C) es = (some .wallTime, st))
    (hne : evaluations cfg 0 es ≠ []) (r : TimeoutResult cfg.C) (st' : St cfg.F cfg.C) (hr : writeState cfg st = (.ok r, st')) :
    ∃ (k : Nat) (e : Pulse ℝ cfg.C × List ℝ), (evaluations cfg 0 es)[k]? = some e ∧
      FirstMin ((evaluations cfg 0 es).map fun e => norm e.2) k ∧ r.finalParameters = some e.1 ∧ r.finalCost = some e.2 ∧
      (cfg.useJac = true → ∃ j, (ownJac cfg st (flattenT e.1)).1 = .ok j ∧ r.finalGradNorm = norm j) ∧
      (cfg.useJac = false → r.finalGradNorm = 0) := by
  have h := run_inv cfg es _ [] (prepared_inv cfg) hn
  rw [hrun] at h
  simp only [List.nil_append] at h
  rcases h.min with ⟨h1, _⟩ | ⟨k, e, a, b, q1, q2, q3, q4, q5, q6, q7, q8⟩
  · exact absurd h1 hne
  refine ⟨k, e, q1, q8 hw, ?_⟩
  have hv : viewPar cfg st b = e.1 := by simp [viewPar, q7]
  have hc : deref st.heap a = e.2 := by rw [q6, hw, stored_none]
  have hrow : rowMajor e.1 = flattenT e.1 := rowMajor_eq_flattenT _ (by
    rcases hTC with h1 | h1
    · left; rw [(unflatten_ok q7).2.1, h1]
    · right; exact h1)
  unfold writeState at hr
  cases huj : cfg.useJac with
  | false =>
    rw [huj] at hr
    simp only [Prod.mk.injEq, Except.ok.injEq] at hr
    obtain ⟨rfl, rfl⟩ := hr
    simp [q2, q3, hv, hc]
  | true =>
    rw [huj] at hr
    simp only [q3, hv, hrow] at hr
    split at hr
    next => simp at hr
    next j st1 hj =>
      simp only [Prod.mk.injEq, Except.ok.injEq] at hr
      obtain ⟨rfl, rfl⟩ := hr
      have hkeep : st1.heap = st.heap ∧ st1.minCosts = st.minCosts ∧ st1.minPar = st.minPar := by
        have hjw : ∀ v, (jacWrapper cfg st v).2.heap = st.heap ∧ (jacWrapper cfg st v).2.minCosts = st.minCosts ∧
            (jacWrapper cfg st v).2.minPar = st.minPar := fun v =>
          have ⟨f1, _, _, _, f5, f6⟩ := jacWrapper_frame cfg st v
          ⟨f1, f5, f6⟩
        have h3 := hjw (flattenT e.1)
        unfold ownJac scalarJac at hj
        cases hsc : cfg.scalar <;> simp only [hsc] at hj
        · split at hj
          next => simp at hj
          next h5 => rw [h5] at h3; simp only [Prod.mk.injEq] at hj; rw [hj.2] at h3; exact h3
        · split at hj
          next => simp at hj
          next h5 => rw [h5] at h3; simp only [Prod.mk.injEq] at hj; rw [hj.2] at h3; exact h3
      have hv' : viewPar cfg st1 b = e.1 := by rw [← hv]; simp [viewPar, hkeep.1]
      simp [hkeep.2.1, hkeep.2.2, q2, q3, hv', hkeep.1, hc, hj]

end Verif.Optim
