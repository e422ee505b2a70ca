import Verif.Sim.Thms

/-!
# C137: the labelled curves of `Analyser.plot_costs`

Names of the cost function classes, the labels they have by default, and the curves drawn from the recorded costs.
-/

namespace Verif.Plot
open Verif Verif.Sim Verif.Transfer

/-! ## Model -/

/-- The cost function classes of cost_functions.py which can be built with a solver.  `OperatorMatrixNorm` cannot (C89). -/
inductive CostClass where
  | stateInfidelity | stateInfidelitySubspace | stateNoiseInfidelity
  /-- the flag: `fidelity_measure` is 'entanglement' -/
  | operationInfidelity (entanglement : Bool)
  | operationNoiseInfidelity | liouvilleMonteCarlo
  /-- the number of noise operators of the pulse sequence -/
  | filterFunction (noiseOperators : Nat)
  | leakage | incoherentLeakage | leakageLiouville

/-- The labels if the argument `label` is None, cost_functions.py:1004-1006, 1072-1074, 1126-1128, 1252-1258, 1369-1371, 1490-1492,
1557-1559, 1654-1656, 1722-1724, 1795-1797. -/
def CostClass.defaultLabel : CostClass → List String
  | .stateInfidelity => ["State Infidelity"]
  | .stateInfidelitySubspace => ["State Infidelity"]
  | .stateNoiseInfidelity => ["State Infidelity"]
  | .operationInfidelity true => ["Entanglement Infidelity"]
  | .operationInfidelity false => ["Operator Infidelity"]
  | .operationNoiseInfidelity => ["Operator Noise Infidelity"]
  | .liouvilleMonteCarlo => ["Super Operator M.C. Ent. Infidelity"]
  | .filterFunction _ => ["Infidelity Filter Function"]
  | .leakage => ["Leakage Error"]
  | .incoherentLeakage => ["Incoherent Leakage Error"]
  | .leakageLiouville => ["Leakage Error Lindblad"]

/-- The number of values `costs` returns: a number for all classes except `OperatorFilterFunctionInfidelity.costs`
(cost_functions.py:1577-1597), which returns the array of `filter_functions.numeric.infidelity` with one entry per noise operator (as
documented by the filter function package). -/
def CostClass.values : CostClass → Nat
  | .filterFunction k => k
  | _ => 1

/-- `np.asarray(rows).T`, iterated over: the columns.  Rows of different lengths raise ValueError. -/
def columns : List (List ℝ) → Except PyErr (List (List ℝ))
  | [] => .ok []
  | r :: rs =>
    if ∀ x ∈ rs, x.length = r.length then .ok ((List.range r.length).map fun j => (r :: rs).map fun x => x.getD j 0)
    else .error .valueError

/-- The curves of `Analyser.plot_costs(n)` with their labels, analyser.py:114-115: `zip` of the columns of `data.costs[n]` with
`data.indices`.  Axes, legend and scale are not modelled, nor negative values of `n`. -/
def plotCosts (costs : List (List (List ℝ))) (indices : List String) (n : Nat) : Except PyErr (List (String × List ℝ)) :=
  match costs[n]? with
  | none => .error .indexError
  | some run => do
    let cols ← columns run
    pure (indices.zip cols)

/-- The costs recorded while a simulator evaluates pulses one after the other (`cost_func_wrapper` without weights,
optimize.py:195-232). -/
noncomputable def record {p : Nat} (sim : Sim p) : List (Pulse ℝ p) → Except PyErr (Sim p × List (List ℝ))
  | [] => .ok (sim, [])
  | y :: ys => do
    let (s, c) ← sim.wrappedCosts (some y)
    let (s', cs) ← record s ys
    pure (s', c :: cs)

/-! ## Specification -/

/-- The cost function `F` returned `v` when the `i`-th pulse was evaluated. -/
def Returned {p : Nat} (sim : Sim p) (ys : List (Pulse ℝ p)) (F : CostFn p) (i : Nat) (v : List ℝ) : Prop :=
  ∃ before after y c s, record sim (ys.take i) = .ok before ∧ ys[i]? = some y ∧ before.1.wrappedCosts (some y) = .ok (after, c) ∧
    after.solvers[F.solver]? = some s ∧ F.costs s = .ok v

/-! ## Lemmas -/

theorem columns_ok {rows : List (List ℝ)} {k : Nat} (h : ∀ r ∈ rows, r.length = k) (hne : rows ≠ []) :
    columns rows = .ok ((List.range k).map fun j => rows.map fun x => x.getD j 0) := by
  cases rows with
  | nil => exact absurd rfl hne
  | cons r rs =>
    have hr := h r (by simp)
    have hc : ∀ x ∈ rs, x.length = r.length := fun x hx => by rw [h x (by simp [hx]), hr]
    simp only [columns]
    rw [if_pos hc, hr]

theorem record_cons {p : Nat} {sim : Sim p} {y ys r} (h : record sim (y :: ys) = .ok r) :
    ∃ s c s' cs, sim.wrappedCosts (some y) = .ok (s, c) ∧ record s ys = .ok (s', cs) ∧ r = (s', c :: cs) := by
  unfold record at h
  obtain ⟨⟨s, c⟩, h1, h⟩ := TF.bind_ok h
  obtain ⟨⟨s', cs⟩, h2, h⟩ := TF.bind_ok h
  simp only [pure, Except.pure, Except.ok.injEq] at h
  exact ⟨s, c, s', cs, h1, h2, h.symm⟩

theorem Returned.cons {p : Nat} {sim s : Sim p} {y : Pulse ℝ p} {ys : List (Pulse ℝ p)} {c : List ℝ} {F : CostFn p} {i : Nat} {v : List ℝ}
    (h0 : sim.wrappedCosts (some y) = .ok (s, c)) (h : Returned s ys F i v) : Returned sim (y :: ys) F (i + 1) v := by
  obtain ⟨before, after, y', c', s', h1, h2, h3, h4, h5⟩ := h
  refine ⟨(before.1, c :: before.2), after, y', c', s', ?_, h2, h3, h4, h5⟩
  rw [List.take_succ_cons]
  unfold record
  rw [h0]
  simp only [bind, Except.bind]
  rw [h1]
  rfl

theorem record_rows {p : Nat} (ys : List (Pulse ℝ p)) (sim sim' : Sim p) (costs : List (List ℝ)) (h : record sim ys = .ok (sim', costs))
    (hlab : ∀ F ∈ sim.costFuncs, ∀ s v, F.costs s = .ok v → v.length = F.label.length) :
    costs.length = ys.length ∧ (∀ row ∈ costs, row.length = sim.costIndices.length) ∧
    ∀ (k : Nat) (F : CostFn p), sim.costFuncs[k]? = some F → ∀ j row, costs[j]? = some row → ∃ v, Returned sim ys F j v ∧
      ∀ i < F.label.length, row[offset sim.costFuncs k + i]? = v[i]? := by
  induction ys generalizing sim sim' costs with
  | nil =>
    simp only [record, Except.ok.injEq, Prod.mk.injEq] at h
    obtain ⟨-, rfl⟩ := h
    exact ⟨rfl, by simp, by simp⟩
  | cons y ys ih =>
    obtain ⟨s, c, s', cs, h1, h2, h3⟩ := record_cons h
    simp only [Prod.mk.injEq] at h3
    obtain ⟨rfl, rfl⟩ := h3
    obtain ⟨c1, c2, c3⟩ := c56_cost_order sim s (some y) c h1 hlab
    have hi : s.costIndices = sim.costIndices := by unfold Sim.costIndices; rw [c2]
    obtain ⟨i1, i2, i3⟩ := ih s sim' cs h2 (by rw [c2]; exact hlab)
    rw [c2] at i3
    refine ⟨by simp [i1], ?_, ?_⟩
    · intro row hrow
      rcases List.mem_cons.1 hrow with rfl | hrow
      · exact c1
      · rw [i2 row hrow, hi]
    · intro k F hk j row hj
      cases j with
      | zero =>
        obtain ⟨so, v, a1, a2, a3⟩ := c3 k F hk
        simp only [List.getElem?_cons_zero, Option.some.injEq] at hj
        subst hj
        exact ⟨v, ⟨(sim, []), s, y, _, so, rfl, rfl, h1, a1, a2⟩, fun i hi => (a3 i hi).1⟩
      | succ j =>
        obtain ⟨v, a1, a2⟩ := i3 k F hk j row (by simpa using hj)
        exact ⟨v, a1.cons h1, a2⟩

/-! ## Properties -/

/-- **C137** `plot_costs` draws for every label of every cost function one curve, which has this label and consists of the values the cost
function returned for the pulses in the order of their evaluation, if every cost function returns as many values as it has labels. -/
theorem c137_curves {p : Nat} (sim sim' : Sim p) (ys : List (Pulse ℝ p)) (hy : ys ≠ []) (costs : List (List ℝ))
    (h : record sim ys = .ok (sim', costs)) (hlab : ∀ F ∈ sim.costFuncs, ∀ s v, F.costs s = .ok v → v.length = F.label.length)
    (runs : List (List (List ℝ))) (n : Nat) (hn : runs[n]? = some costs) :
    ∃ curves, plotCosts runs sim.costIndices n = .ok curves ∧ curves.map Prod.fst = (sim.costFuncs.map CostFn.label).flatten ∧
      ∀ (k : Nat) (F : CostFn p), sim.costFuncs[k]? = some F → ∀ (i : Nat) (l : String), F.label[i]? = some l →
        ∃ vals, curves[offset sim.costFuncs k + i]? = some (l, vals) ∧ vals.length = ys.length ∧
          ∀ j < ys.length, ∃ v, Returned sim ys F j v ∧ vals[j]? = v[i]? := by
  obtain ⟨r1, r2, r3⟩ := record_rows ys sim sim' costs h hlab
  have hne : costs ≠ [] := by
    rintro rfl
    exact hy (List.length_eq_zero_iff.1 r1.symm)
  have hp : plotCosts runs sim.costIndices n =
      .ok (sim.costIndices.zip ((List.range sim.costIndices.length).map fun j => costs.map fun x => x.getD j 0)) := by
    unfold plotCosts
    rw [hn]
    simp only
    rw [columns_ok r2 hne]
    rfl
  refine ⟨_, hp, ?_, ?_⟩
  · rw [List.map_fst_zip (by simp)]
    rfl
  · intro k F hk i l hl
    have hi : i < F.label.length := (List.getElem?_eq_some_iff.1 hl).1
    have hoff : sim.costIndices[offset sim.costFuncs k + i]? = some l := by
      obtain ⟨y, ys', rfl⟩ := List.exists_cons_of_ne_nil hy
      obtain ⟨s, c, -, -, h1, -, -⟩ := record_cons h
      obtain ⟨-, -, c3⟩ := c56_cost_order sim s (some y) c h1 hlab
      obtain ⟨_, _, -, -, a3⟩ := c3 k F hk
      rw [(a3 i hi).2, hl]
    have hlt : offset sim.costFuncs k + i < sim.costIndices.length := (List.getElem?_eq_some_iff.1 hoff).1
    refine ⟨costs.map fun x => x.getD (offset sim.costFuncs k + i) 0, ?_, by simp [r1], ?_⟩
    · rw [List.getElem?_zip_eq_some]
      refine ⟨hoff, ?_⟩
      simp [hlt]
    · intro j hj
      have hj' : j < costs.length := by rw [r1]; exact hj
      obtain ⟨v, a1, a2⟩ := r3 k F hk j costs[j] (List.getElem?_eq_getElem hj')
      refine ⟨v, a1, ?_⟩
      have hrow : offset sim.costFuncs k + i < costs[j].length := by rw [r2 _ (List.getElem_mem hj')]; exact hlt
      rw [← a2 i hi, List.getElem?_map, List.getElem?_eq_getElem hj', Option.map_some, List.getElem?_eq_getElem hrow,
        List.getD_eq_getElem _ _ hrow]

/-- **C137**, in part: with the default labels every class has as many labels as values, except filter functions of several (or no) noise
operators. -/
theorem c137_default_partial (c : CostClass) : c.defaultLabel.length = c.values ↔ ∀ k, c = .filterFunction k → k = 1 := by
  cases c with
  | filterFunction k =>
    constructor
    · intro h j hj
      cases hj
      exact h.symm
    · intro h
      exact (h k rfl).symm
  | operationInfidelity e => cases e <;> simp [CostClass.defaultLabel, CostClass.values]
  | _ => simp [CostClass.defaultLabel, CostClass.values]

/-- **C137** is violated: the filter function infidelities of `k + 2` noise operators followed by a leakage error, both with their default
labels.  The curve labelled "Leakage Error" shows the infidelity of the second noise operator, and the leakage is not drawn at all. -/
theorem c137_violated (k : Nat) (infid : Fin (k + 2) → Nat → ℝ) (leak : Nat → ℝ) (steps : Nat) (hs : 0 < steps) :
    plotCosts [(List.range steps).map fun j => List.ofFn (fun a => infid a j) ++ [leak j]]
        ((CostClass.filterFunction (k + 2)).defaultLabel ++ CostClass.leakage.defaultLabel) 0 =
      .ok [("Infidelity Filter Function", (List.range steps).map (infid 0)), ("Leakage Error", (List.range steps).map (infid 1))] := by
  have hc : columns ((List.range steps).map fun j => List.ofFn (fun a => infid a j) ++ [leak j]) = _ :=
    columns_ok (k := k + 3) (by
      intro r hr
      obtain ⟨j, -, rfl⟩ := List.mem_map.1 hr
      simp) (by
      intro h
      rw [List.map_eq_nil_iff, List.range_eq_nil] at h
      omega)
  unfold plotCosts
  simp only [List.getElem?_cons_zero]
  rw [hc]
  simp only [bind, Except.bind, pure, Except.pure, CostClass.defaultLabel]
  rw [show List.range (k + 3) = 0 :: 1 :: (List.range (k + 1)).map (· + 2) by
    rw [List.range_succ_eq_map, List.range_succ_eq_map]
    simp]
  simp

/-! ## Examples -/

/-- `c137_curves` for the simulator with two cost functions. -/
example : ∃ sim' costs, record Ex55.sim [[fun _ => 1, fun _ => 2]] = .ok (sim', costs) ∧ ∃ curves,
    plotCosts [costs] Ex55.sim.costIndices 0 = .ok curves ∧ curves.map Prod.fst = ["power", "power"] := by
  have hlab : ∀ F ∈ Ex55.sim.costFuncs, ∀ s v, F.costs s = .ok v → v.length = F.label.length := by
    intro F hF s v hv
    simp only [Ex55.sim, List.mem_cons, List.not_mem_nil, or_false, or_self] at hF
    subst hF
    simp only [Ex55.cost] at hv ⊢
    cases e : s.amps with
    | none => simp [e] at hv
    | some u =>
      simp only [e, Except.ok.injEq] at hv
      rw [← hv]; rfl
  have hr : ∃ sim' costs, record Ex55.sim [[fun _ => 1, fun _ => 2]] = .ok (sim', costs) := by
    simp [record, Sim.wrappedCosts, Ex55.sim, Sim.given, Sim.setSolvers, SolverObj.setPars, Ex55.solver, Ex55.tf, TF.call, TF.checkRows,
      Ex55.base, TF.getMatrix, Tensor.apply, bind, Except.bind, pure, Except.pure, AmpFunc.call, TF.addOffset, Sim.costLoop,
      Sim.solverOf, Ex55.cost, Sim.concatenate0]
  obtain ⟨sim', costs, h⟩ := hr
  obtain ⟨curves, h1, h2, -⟩ := c137_curves _ sim' _ (by simp) costs h hlab [costs] 0 rfl
  exact ⟨sim', costs, h, curves, h1, h2⟩

/-- `c137_default_partial` for one noise operator. -/
example : (CostClass.filterFunction 1).defaultLabel.length = (CostClass.filterFunction 1).values :=
  (c137_default_partial _).2 fun k h => by cases h; rfl

/-- `c137_violated` with two noise operators and three evaluations. -/
example : plotCosts [[[1, 2, 3], [4, 5, 6], [7, 8, 9]]] ["Infidelity Filter Function", "Leakage Error"] 0 =
    .ok [("Infidelity Filter Function", [1, 4, 7]), ("Leakage Error", [2, 5, 8])] := by
  have := c137_violated 0 (fun a j => 3 * j + a + 1) (fun j => 3 * j + 3) 3 (by norm_num)
  norm_num [List.range_succ, CostClass.defaultLabel] at this
  exact this

end Verif.Plot
