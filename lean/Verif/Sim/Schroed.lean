import Verif.Sim.Thms
import Verif.Cost.LindbladTotal
import Verif.Cost.LeakTotal

/-!
# The gradient handed to the optimiser, end to end

Simulator, transfer function, amplitude function, Schroedinger solver, matrix exponential and infidelity put together.
-/

namespace Verif.Sim
open Verif Verif.Transfer Verif.Operator Verif.Solver Verif.Cost Matrix

variable {n m : Type} [Fintype n] [DecidableEq n] {q : Nat}

/-! ## Model -/

/-- The solver behind the control amplitudes: transfer function and amplitude function are those of the solver object of the
simulator (`SolverObj`), what remains is the part of the solver that starts from `_ctrl_amps` and `transferred_time`
(solver_algorithms.py:405-585). -/
noncomputable def _root_.Verif.Solver.SPar.bare (p : SPar n m) : SPar n m :=
  ⟨p.L, p.method, p.skew, p.calcDeriv, p.approx, p.init, p.drift, p.ctrl, idTf, id, idAmp⟩

/-- The solver in the state after `set_optimization_parameters` stored the amplitudes (or before any were stored).  By C29 the
later history does not matter. -/
noncomputable def stateOf (p : SPar n m) (τ : List ℝ) (s : SolverObj q) : St n m :=
  match s.amps with
  | none => construct p.bare.cfg τ
  | some u => fresh p.bare.cfg τ (u.map fun r => List.ofFn r)

/-- A cost function object whose solver is a Schroedinger solver, with one cost and a two-dimensional gradient. -/
noncomputable def solverCost (p : SPar n m) (τ : List ℝ) (costF : List (Matrix n m ℂ) → Except PyErr ℝ)
    (gradF : Trace n m → Except PyErr (List (List ℝ))) (i : Nat) (label : String) : CostFn q :=
  ⟨i, [label], fun s => (costOn costF p.bare.cfg (stateOf p τ s)).1.map fun x => [x],
    fun s => (gradOn gradF p.bare.cfg (stateOf p τ s)).1.map fun g => .flat (g.map fun row k => row.getD k 0)⟩

/-- `OperationInfidelity` (cost_functions.py:1226-1316) on a Schroedinger solver, as the simulator sees it. -/
noncomputable def operationCost (p : SPar n n) (τ : List ℝ) (cl : Closest) (cs : Option (List n))
    (T : Matrix (CompIdx cs) (CompIdx cs) ℂ) (mcu : Bool) (i : Nat) (label : String) : CostFn q :=
  solverCost p τ (opCosts cl cs T mcu) (fun tr => opGrad cl cs T mcu tr.fwd tr.dP tr.rev) i label

/-- `StateInfidelity` (cost_functions.py:971-1038) on a Schroedinger solver, as the simulator sees it. -/
noncomputable def stateCost (p : SPar n (Fin 1)) (τ : List ℝ) (cs : Option (List n)) (T : Matrix (Fin 1) (CompIdx cs) ℂ)
    (r : Bool) (i : Nat) (label : String) : CostFn q :=
  solverCost p τ (stateCosts cs T r) (fun tr => stateGrad cs T r tr.fwd tr.dP tr.rev) i label

/-- `LeakageError` (cost_functions.py:1629-1691) on a Schroedinger solver, as the simulator sees it. -/
noncomputable def leakageCost (p : SPar n n) (τ : List ℝ) (l : List n) (i : Nat) (label : String) : CostFn q :=
  solverCost p τ (leakCosts l) (fun tr => leakGrad l tr.fwd tr.dP tr.rev) i label

/-- `OperationNoiseInfidelity` (cost_functions.py:1319-1454) on a Monte Carlo solver, as the simulator sees it. Optimisation
and transferred parameters are only looked at by a noise amplitude function, which is absent here. -/
noncomputable def noiseCost (τ : List ℝ) (M : MC n n) (cl : Closest) (cs : Option (List n))
    (T : Matrix (CompIdx cs) (CompIdx cs) ℂ) (mcu nse : Bool) (i : Nat) (label : String) : CostFn q :=
  ⟨i, [label], fun s => match s.amps with
      | none => .error .valueError
      | some u => (mcCosts cl cs T mcu nse M τ [] [] (u.map fun r => List.ofFn r)).map fun x => [x],
    fun s => match s.amps with
      | none => .error .valueError
      | some u => (mcGrad cl cs T mcu nse M τ [] [] (u.map fun r => List.ofFn r)).map fun g =>
        .flat (g.map fun row k => row.getD k 0)⟩

/-- `OperationInfidelity` with super operators (cost_functions.py:1226-1316) on a Lindblad solver, as the simulator sees it.
The transferred parameters are only looked at by the functions for the dissipation; here these use the amplitudes. -/
noncomputable def lindbladCost (p : LPar n) (τ : List ℝ) (cs : Option (List n)) (T : Matrix (CompIdx cs) (CompIdx cs) ℂ)
    (i : Nat) (label : String) : CostFn q :=
  ⟨i, [label], fun s => match s.amps with
      | none => .error .valueError
      | some u => (lindCosts cs T p τ (u.map fun r => List.ofFn r) []).map fun x => [x],
    fun s => match s.amps with
      | none => .error .valueError
      | some u => (lindGrad cs T p τ (u.map fun r => List.ofFn r) []).map fun g =>
        .flat (g.map fun row k => row.getD k 0)⟩

/-! ## Specification -/

/-- What the constructor of the solver and the choice of the exact derivative guarantee: at least one control and one time
step, a drift operator for every step, exponentials and derivatives by `expm` and `expm_frechet`. -/
structure Exact (p : SPar n m) (τ : List ℝ) : Prop where
  ctrl : p.ctrl ≠ []
  drift : p.drift.length = τ.length
  steps : τ ≠ []
  method : p.method = .frechet
  approx : p.approx = .none
  expm : p.L.ExpmOk
  frechet : p.L.FrechetOk
  stable : Stable p.bare.cfg

/-- Specification: a cost function of the simulator is an infidelity computed from the Schroedinger equation whose size fits
to the solver object. -/
inductive Infidelity (F : CostFn q) (s : SolverObj q) : Prop
  | operation {n : Type} [Fintype n] [DecidableEq n] (p : SPar n n) (τ : List ℝ) (h : Exact p τ) (hc : s.c = p.ctrl.length)
      (hN : s.nTimes = τ.length) (cl : Closest) (cs : Option (List n)) (hcs : cs ≠ some []) (mcu : Bool)
      (hm : mcu = false ∨ cs = none) (T : Matrix (CompIdx cs) (CompIdx cs) ℂ) (i : Nat) (label : String)
      (hF : F = operationCost p τ cl cs T mcu i label)
  | state {n : Type} [Fintype n] [DecidableEq n] (p : SPar n (Fin 1)) (τ : List ℝ) (h : Exact p τ)
      (hc : s.c = p.ctrl.length) (hN : s.nTimes = τ.length) (cs : Option (List n)) (hcs : cs ≠ some [])
      (T : Matrix (Fin 1) (CompIdx cs) ℂ) (r : Bool) (i : Nat) (label : String) (hF : F = stateCost p τ cs T r i label)
  | leakage {n : Type} [Fintype n] [DecidableEq n] (p : SPar n n) (τ : List ℝ) (h : Exact p τ) (hc : s.c = p.ctrl.length)
      (hN : s.nTimes = τ.length) (hdH : ∀ H ∈ p.drift, H.IsHermitian) (hcH : ∀ H ∈ p.ctrl, H.IsHermitian)
      (hi : p.init ∈ Matrix.unitaryGroup n ℂ) (l : List n) (hl : l.Nodup) (hne : l ≠ []) (i : Nat) (label : String)
      (hF : F = leakageCost p τ l i label)
  | noise {n : Type} [Fintype n] [DecidableEq n] (p : SPar n n) (τ : List ℝ) (h : Exact p τ) (hc : s.c = p.ctrl.length)
      (hN : s.nTimes = τ.length) (M : MC n n) (hM : Sampled M p.bare τ) (cl : Closest) (cs : Option (List n))
      (hcs : cs ≠ some []) (mcu nse : Bool) (hm : mcu = false ∨ cs = none) (T : Matrix (CompIdx cs) (CompIdx cs) ℂ) (i : Nat)
      (label : String) (hF : F = noiseCost τ M cl cs T mcu nse i label)
  | lindblad {n : Type} [Fintype n] [DecidableEq n] (p : LPar n) (τ : List ℝ) (h : LExact p τ) (hc : s.c = p.ctrl.length)
      (hN : s.nTimes = τ.length) (E : Fin τ.length → (Fin p.ctrl.length → ℝ) → Sup n) (hE : GivenDiss p τ.length E)
      (cs : Option (List n)) (T : Matrix (CompIdx cs) (CompIdx cs) ℂ) (i : Nat) (label : String)
      (hF : F = lindbladCost p τ cs T i label)

/-! ## Lemmas -/

theorem rowsOf_rowAt {c : Nat} (u : Pulse ℝ c) (N : Nat) (h : u.length = N) :
    u.map (fun r => List.ofFn r) = rowsOf fun t : Fin N => rowAt u t := by
  subst h
  refine List.ext_getElem (by simp [rowsOf]) fun i h1 h2 => ?_
  have hi : i < u.length := by simpa using h1
  simp [rowsOf, rowAt_lt _ _ hi]

theorem bare_reach (p : SPar n m) (τ : List ℝ) (hτ : τ ≠ []) (U : Fin τ.length → Fin p.ctrl.length → ℝ) :
    ampsOf p.bare.cfg τ (rowsOf U) = some (rowsOf U) := by
  obtain ⟨h1, h2⟩ := rowsOf_shape U
  have hne : rowsOf U ≠ [] := by
    intro h0
    rw [h0] at h1
    exact hτ (List.length_eq_zero_iff.mp h1.symm)
  obtain ⟨r, e1, e2, e3, e4⟩ := idAmp_ok (rowsOf U) p.ctrl.length hne h2
  have := ampsOf_some p.bare.cfg τ (rowsOf U) (rowsOf U) r rfl e1 e2 (by rw [e4]; exact h1) e3
  rw [this, e4]

theorem Exact.valid {p : SPar n m} {τ : List ℝ} (h : Exact p τ) : p.bare.Valid τ :=
  ⟨h.ctrl, h.drift, by show p.method ≠ .other; rw [h.method]; simp⟩

/-- A gradient that is the total derivative with respect to the amplitudes makes the cost function correct in the sense of
C55. -/
theorem correct_of_total (F : CostFn q) (s : SolverObj q) (Φ : (Fin s.nTimes → Fin s.c → ℝ) → ℝ)
    (hcost : ∀ tf o (u : Pulse ℝ s.c), u.length = s.nTimes → F.costs (s.withAmps tf o u) = .ok [Φ fun t => rowAt u t])
    (hgrad : ∀ tf o (u : Pulse ℝ s.c), u.length = s.nTimes → ∃ g : Fin s.nTimes → Fin s.c → ℝ,
      F.grad (s.withAmps tf o u) = .ok (.flat (List.ofFn g)) ∧
      ∃ L : (Fin s.nTimes → Fin s.c → ℝ) →L[ℝ] ℝ, HasFDerivAt Φ L (fun t => rowAt u t) ∧
        ∀ V, L V = ∑ t, ∑ k, g t k * V t k) :
    F.Correct s ∧ ∀ tf o u, u.length = s.nTimes → ∃ jac, F.grad (s.withAmps tf o u) = .ok jac ∧
      jac.expand.2.length = s.nTimes := by
  refine ⟨⟨fun u => [Φ fun t => rowAt u t], hcost, ?_⟩, ?_⟩
  · intro tf o u jac hu hj
    obtain ⟨g, h1, L, h2, h3⟩ := hgrad tf o u hu
    rw [h1] at hj
    simp only [Except.ok.injEq] at hj
    subst hj
    refine ⟨by simp only [Jac.expand, List.length_map, List.length_ofFn]; exact hu.symm, fun v _ => rfl, ?_⟩
    intro w w' h₀ hw hcd i
    have hi : i = (0 : Fin 1) := Subsingleton.elim (α := Fin 1) _ _
    subst hi
    have h4 : HasDerivAt (fun h => (fun t : Fin s.nTimes => rowAt (w h) t)) (fun t => rowAt w' t) h₀ :=
      hasDerivAt_pi.mpr fun t => hasDerivAt_pi.mpr fun k => hcd.deriv t k
    subst hw
    have h5 := h2.comp_hasDerivAt h₀ h4
    rw [h3] at h5
    have e1 : (fun h => ([Φ fun t : Fin s.nTimes => rowAt (w h) t] : List ℝ).getD ((0 : Fin 1) : Nat) 0) =
        Φ ∘ fun h (t : Fin s.nTimes) => rowAt (w h) t := by
      funext h
      rfl
    rw [e1]
    refine h5.congr_deriv ?_
    show _ = pairing ((List.ofFn g).map fun r (_ : Fin 1) => r) w' 0
    rw [pairing_eq_sum _ _ _ s.nTimes (Or.inl (by simp)), Finset.sum_range]
    refine Finset.sum_congr rfl fun t _ => Finset.sum_congr rfl fun k _ => ?_
    congr 1
    rw [rowAt_lt _ _ (by simp)]
    simp
  · intro tf o u hu
    obtain ⟨g, h1, -⟩ := hgrad tf o u hu
    exact ⟨_, h1, by simp [Jac.expand]⟩

theorem flat_rowsOf {N c : Nat} (g : Fin N → Fin c → ℝ) :
    ((rowsOf g).map fun row (k : Fin c) => row.getD k 0) = List.ofFn g := by
  refine List.ext_getElem (by simp [rowsOf]) fun j h1 h2 => ?_
  funext k
  rw [List.getElem_map, List.getElem_ofFn]
  simp only [rowsOf, List.getElem_ofFn]
  rw [List.getD_eq_getElem _ _ (by simp)]
  simp

/-- Infidelities that are a function of the final propagator. -/
theorem solverCost_correct (p : SPar n m) (τ : List ℝ) (hτ : τ ≠ []) (costF : List (Matrix n m ℂ) → Except PyErr ℝ)
    (gradF : Trace n m → Except PyErr (List (List ℝ))) (Φ : Matrix n m ℂ → ℝ) (i : Nat) (label : String) (s : SolverObj q)
    (hc : s.c = p.ctrl.length) (hN : s.nTimes = τ.length)
    (ht : ∀ U : Fin τ.length → Fin p.ctrl.length → ℝ, ∃ g : Fin τ.length → Fin p.ctrl.length → ℝ,
      (∀ s, Ready p.bare τ (rowsOf U) s → (gradOn gradF p.bare.cfg s).1 = .ok (rowsOf g)) ∧
      (∀ (V : Fin τ.length → Fin p.ctrl.length → ℝ) s, Ready p.bare τ (rowsOf V) s →
        (costOn costF p.bare.cfg s).1 = .ok (Φ (p.bare.final τ (rowsOf V)))) ∧
      ∃ L : (Fin τ.length → Fin p.ctrl.length → ℝ) →L[ℝ] ℝ,
        HasFDerivAt (fun V : Fin τ.length → Fin p.ctrl.length → ℝ => Φ (p.bare.final τ (rowsOf V))) L U ∧
          ∀ V, L V = ∑ t, ∑ k, g t k * V t k) :
    (solverCost p τ costF gradF i label).Correct s ∧
      ∀ tf o u, u.length = s.nTimes → ∃ jac, (solverCost p τ costF gradF i label).grad (s.withAmps tf o u) = .ok jac ∧
        jac.expand.2.length = s.nTimes := by
  obtain ⟨c, tf₀, amp, nT, o₀, a₀⟩ := s
  simp only at hc hN
  subst hc hN
  have hready : ∀ u : Pulse ℝ p.ctrl.length, u.length = τ.length →
      Ready p.bare τ (rowsOf fun t : Fin τ.length => rowAt u t) (fresh p.bare.cfg τ (u.map fun r => List.ofFn r)) := by
    intro u hu
    rw [rowsOf_rowAt u τ.length hu]
    exact ready_fresh p.bare τ _ _ (bare_reach p τ hτ _)
  refine correct_of_total _ _ (fun V => Φ (p.bare.final τ (rowsOf V))) (fun tf o u hu => ?_) (fun tf o u hu => ?_)
  · obtain ⟨g, -, h2, -⟩ := ht fun t => rowAt u t
    show ((costOn costF p.bare.cfg (fresh p.bare.cfg τ (u.map fun r => List.ofFn r))).1.map _) = _
    rw [h2 _ _ (hready u hu)]
    rfl
  · obtain ⟨g, h1, -, h3⟩ := ht fun t => rowAt u t
    refine ⟨g, ?_, h3⟩
    show ((gradOn gradF p.bare.cfg (fresh p.bare.cfg τ (u.map fun r => List.ofFn r))).1.map _) = _
    rw [h1 _ (hready u hu)]
    simp only [Except.map]
    rw [flat_rowsOf]

/-- The noise averaged infidelity. -/
theorem noiseCost_correct (p : SPar n n) (τ : List ℝ) (h : Exact p τ) (M : MC n n) (hM : Sampled M p.bare τ) (cl : Closest)
    (cs : Option (List n)) (hcs : cs ≠ some []) (mcu nse : Bool) (hm : mcu = false ∨ cs = none)
    (T : Matrix (CompIdx cs) (CompIdx cs) ℂ) (i : Nat) (label : String) (s : SolverObj q)
    (hc : s.c = p.ctrl.length) (hN : s.nTimes = τ.length) :
    (noiseCost τ M cl cs T mcu nse i label).Correct s ∧
      ∀ tf o u, u.length = s.nTimes → ∃ jac, (noiseCost τ M cl cs T mcu nse i label).grad (s.withAmps tf o u) = .ok jac ∧
        jac.expand.2.length = s.nTimes := by
  obtain ⟨c, tf₀, amp, nT, o₀, a₀⟩ := s
  simp only at hc hN
  subst hc hN
  have ht := c93_noise_total p.bare τ h.valid h.stable h.method h.approx h.expm h.frechet h.steps
    (fun V => ⟨_, bare_reach p τ h.steps V⟩) M hM cl cs hcs mcu nse hm T [] []
  refine correct_of_total _ _ (fun V => noiseInfidelity cl cs T mcu nse (p.bare.final τ (rowsOf V)) M.nTraces fun k =>
    (p.bare.noisy M.hNoise M.samples k).final τ (rowsOf V)) (fun tf o u hu => ?_) (fun tf o u hu => ?_)
  · obtain ⟨g, -, h2, -⟩ := ht fun t => rowAt u t
    show ((mcCosts cl cs T mcu nse M τ [] [] (u.map fun r => List.ofFn r)).map _) = _
    rw [rowsOf_rowAt u τ.length hu]
    exact congrArg (Except.map fun x : ℝ => [x]) (h2 fun t => rowAt (α := Fin p.ctrl.length → ℝ) u t)
  · obtain ⟨g, h1, -, h3⟩ := ht fun t => rowAt u t
    refine ⟨g, ?_, h3⟩
    show ((mcGrad cl cs T mcu nse M τ [] [] (u.map fun r => List.ofFn r)).map _) = _
    rw [rowsOf_rowAt u τ.length hu]
    refine (congrArg (Except.map fun g : List (List ℝ) => Jac.flat (g.map fun row (k : Fin p.ctrl.length) => row.getD k 0))
      h1).trans ?_
    exact congrArg (fun l => Except.ok (Jac.flat l)) (flat_rowsOf g)

/-- The infidelity of an open system. -/
theorem lindbladCost_correct (p : LPar n) (τ : List ℝ) (h : LExact p τ) (E : Fin τ.length → (Fin p.ctrl.length → ℝ) → Sup n)
    (hE : GivenDiss p τ.length E) (cs : Option (List n)) (T : Matrix (CompIdx cs) (CompIdx cs) ℂ) (i : Nat) (label : String)
    (s : SolverObj q) (hc : s.c = p.ctrl.length) (hN : s.nTimes = τ.length) :
    (lindbladCost p τ cs T i label).Correct s ∧
      ∀ tf o u, u.length = s.nTimes → ∃ jac, (lindbladCost p τ cs T i label).grad (s.withAmps tf o u) = .ok jac ∧
        jac.expand.2.length = s.nTimes := by
  obtain ⟨c, tf₀, amp, nT, o₀, a₀⟩ := s
  simp only at hc hN
  subst hc hN
  refine correct_of_total _ _ (fun V => 1 - entFidSup cs T (lindFinal p τ E V)) (fun tf o u hu => ?_) (fun tf o u hu => ?_)
  · obtain ⟨g, -, h2, -⟩ := c98_total p τ h E hE cs T (fun t => rowAt u t) []
    show ((lindCosts cs T p τ (u.map fun r => List.ofFn r) []).map _) = _
    rw [rowsOf_rowAt u τ.length hu]
    exact congrArg (Except.map fun x : ℝ => [x]) (h2 (fun t => rowAt (α := Fin p.ctrl.length → ℝ) u t) [])
  · obtain ⟨g, h1, -, h3⟩ := c98_total p τ h E hE cs T (fun t => rowAt u t) []
    refine ⟨g, ?_, h3⟩
    show ((lindGrad cs T p τ (u.map fun r => List.ofFn r) []).map _) = _
    rw [rowsOf_rowAt u τ.length hu]
    refine (congrArg (Except.map fun g : List (List ℝ) => Jac.flat (g.map fun row (k : Fin p.ctrl.length) => row.getD k 0))
      h1).trans ?_
    exact congrArg (fun l => Except.ok (Jac.flat l)) (flat_rowsOf g)

/-- The infidelities computed from the Schroedinger equation are correct in the sense of C55 and their gradients can be
computed for all amplitudes of the right shape. -/
theorem Infidelity.correct {F : CostFn q} {s : SolverObj q} (h : Infidelity F s) :
    F.Correct s ∧ ∀ tf o u, u.length = s.nTimes → ∃ jac, F.grad (s.withAmps tf o u) = .ok jac ∧
      jac.expand.2.length = s.nTimes := by
  cases h with
  | operation p τ h hc hN cl cs hcs mcu hm T i label hF =>
    subst hF
    exact solverCost_correct p τ h.steps _ _ (fun E => 1 - entFid cl cs T E mcu) i label s hc hN fun U =>
      c93_operation_total p.bare τ h.valid h.stable h.method h.approx h.expm h.frechet h.steps
        (fun V => ⟨_, bare_reach p τ h.steps V⟩) cl cs hcs mcu hm T U
  | state p τ h hc hN cs hcs T r i label hF =>
    subst hF
    exact solverCost_correct p τ h.steps _ _ (fun E => 1 - ‖(T * selRows cs E) 0 0‖ ^ 2) i label s hc hN fun U =>
      c93_state_total p.bare τ h.valid h.stable h.method h.approx h.expm h.frechet h.steps
        (fun V => ⟨_, bare_reach p τ h.steps V⟩) cs hcs T r U
  | leakage p τ h hc hN hdH hcH hi l hl hne i label hF =>
    subst hF
    exact solverCost_correct p τ h.steps _ _ (fun E => 1 - ((E.submatrix l.get l.get)ᴴ * E.submatrix l.get l.get).trace.re /
      l.length) i label s hc hN fun U => c50_total p.bare τ h.valid h.stable h.method h.approx h.expm h.frechet h.steps
        (fun V => ⟨_, bare_reach p τ h.steps V⟩) hdH hcH hi l hl hne U
  | noise p τ h hc hN M hM cl cs hcs mcu nse hm T i label hF =>
    subst hF
    exact noiseCost_correct p τ h M hM cl cs hcs mcu nse hm T i label s hc hN
  | lindblad p τ h hc hN E hE cs T i label hF =>
    subst hF
    exact lindbladCost_correct p τ h E hE cs T i label s hc hN

theorem chain_ok {c f : Nat} (a : AmpFunc q c) (ha : a.Correct) (g : Grads ℝ f c) (x : Pulse ℝ q) (h : g.length = x.length) :
    ∃ r, a.chain g x = .ok r ∧ r.length = x.length := by
  cases a with
  | identity => exact ⟨g, rfl, h⟩
  | unary v d =>
    refine ⟨_, if_pos h.symm, by rw [List.length_zipWith, h, min_self]⟩
  | custom v d =>
    obtain ⟨w, -, hd⟩ := ha
    refine ⟨_, if_pos ((hd x).1.trans h.symm), by rw [List.length_zipWith, (hd x).1, h, min_self]⟩

theorem grad_of_back {f : Nat} {t : TF ℝ q} {g h : Grads ℝ f q} (e : t.back g = .ok h) : ∃ t', t.grad g = .ok (t', h) := by
  unfold TF.back at e
  cases hg : t.grad g with
  | error e' => rw [hg] at e; simp [Except.map] at e
  | ok r =>
    rw [hg] at e
    simp only [Except.map, Except.ok.injEq] at e
    exact ⟨r.1, by rw [← e]⟩

/-- Specification: a solver object as the constructors assemble it, for pulses of `N` steps: the transfer function got its
times, the amplitude function acts on each time step, and the solver has one step per transferred time. -/
structure Assembled (s : SolverObj q) (N : Nat) : Prop where
  tf : ∃ (t₀ : TF ℝ q) (ys : List ℝ), TF.Usable t₀ ∧ t₀.setTimes ys = .ok s.tf ∧ ys.length = N ∧ s.nTimes = s.tf.base.numX
  amp : s.amp.Correct
  coherent : s.Coherent

theorem Assembled.fits {s : SolverObj q} {N : Nat} (h : Assembled s N) : s.tf.Fits := by
  obtain ⟨t₀, ys, hu, hs, -⟩ := h.tf
  exact TF.usable_fits t₀ s.tf ys hu hs

theorem Assembled.run {s : SolverObj q} {N : Nat} (h : Assembled s N) (y : Pulse ℝ q) (hy : y.length = N) :
    (∃ x, s.tf.run y = .ok x ∧ x.length = s.nTimes ∧ (s.amp.call x).length = s.nTimes) ∧
    ∀ (f : Nat) (g : Grads ℝ f q), g.length = s.nTimes → ∃ r, s.tf.back g = .ok r ∧ r.length = N := by
  obtain ⟨t₀, ys, hu, hs, hl, hn⟩ := h.tf
  obtain ⟨h1, h2⟩ := c15_shape t₀ s.tf ys hu hs
  obtain ⟨x, hx, hxl⟩ := h1 y (by rw [hy, hl])
  refine ⟨⟨x, hx, by rw [hxl, hn], by rw [amp_len _ h.amp, hxl, hn]⟩, fun f g hg => ?_⟩
  obtain ⟨r, hr, hrl⟩ := h2 f g (by rw [hg, hn])
  exact ⟨r, hr, by rw [hrl, hl]⟩

theorem jacOf_ok {F : CostFn q} {s s' : SolverObj q} {N : Nat} (h : Assembled s N) (hF : Infidelity F s) (y : Pulse ℝ q)
    (hy : y.length = N) (hs : s.setPars y = .ok s') : ∃ J, Sim.jacOf F s' y = .ok J ∧ J.length = N := by
  obtain ⟨tf, x, hsame, hx, hl, rfl⟩ := setPars_ok h.coherent hs
  obtain ⟨-, hb⟩ := h.run y hy
  obtain ⟨jac, hj, hjl⟩ := hF.correct.2 tf (some y) (s.amp.call x) hl
  have hxl : x.length = s.nTimes := by rw [← hl, amp_len _ h.amp]
  obtain ⟨t', ht'⟩ := run_call (by rw [← hsame.2.1]; exact hx : tf.run y = .ok x)
  obtain ⟨r, hr, hrl⟩ := chain_ok s.amp h.amp jac.expand.2 x (by rw [hjl, hxl])
  obtain ⟨b, hbk, hbl⟩ := hb _ r (by rw [hrl, hxl])
  have hbk' : t'.back r = .ok b := by
    rw [← (TF.call_same _ _ _ _ ht').2.2, ← hsame.2.2]
    exact hbk
  obtain ⟨t'', ht''⟩ := grad_of_back hbk'
  refine ⟨b.map fun r => List.ofFn r, ?_, by rw [List.length_map, hbl]⟩
  unfold Sim.jacOf
  rw [hj]
  simp only [bind, Except.bind]
  rw [ht']
  simp only
  rw [hr]
  simp only
  rw [ht'']
  rfl

theorem jacLoop_ok {solvers ss : List (SolverObj q)} {N : Nat} (hA : ∀ s ∈ solvers, Assembled s N) (y : Pulse ℝ q)
    (hy : y.length = N) (hss : Sim.setSolvers solvers y = .ok ss) (Fs : List (CostFn q))
    (hF : ∀ F ∈ Fs, ∃ s, solvers[F.solver]? = some s ∧ Infidelity F s) :
    ∃ Js, Sim.jacLoop ss y Fs = .ok Js ∧ Js.length = Fs.length ∧ ∀ J ∈ Js, J.length = N := by
  induction Fs with
  | nil => exact ⟨[], rfl, rfl, by simp⟩
  | cons F Fs ih =>
    obtain ⟨Js, h1, h2, h3⟩ := ih fun G hG => hF G (by simp [hG])
    obtain ⟨s, hs, hI⟩ := hF F (by simp)
    obtain ⟨s', h4, h5⟩ := setSolvers_get' hss hs
    obtain ⟨J, h6, h7⟩ := jacOf_ok (hA s (List.mem_of_getElem? hs)) hI y hy h5
    refine ⟨J :: Js, ?_, by simp [h2], ?_⟩
    · simp only [Sim.jacLoop, h4, h6, h1, bind, Except.bind, pure, Except.pure]
    · intro J' hJ'
      rcases List.mem_cons.mp hJ' with rfl | h
      · exact h7
      · exact h3 _ h

theorem concatenate1_of {α : Type} {N : Nat} : ∀ (l : List (List (List α))), l ≠ [] → (∀ J ∈ l, J.length = N) →
    ∃ r, Sim.concatenate1 l = .ok r ∧ r.length = N
  | [], h, _ => absurd rfl h
  | [a], _, h => ⟨a, rfl, h a (by simp)⟩
  | a :: b :: l, _, h => by
    obtain ⟨r, h1, h2⟩ := concatenate1_of (b :: l) (by simp) fun J hJ => h J (by simp [List.mem_cons.mp hJ])
    have ha := h a (by simp)
    refine ⟨List.zipWith (· ++ ·) a r, ?_, by rw [List.length_zipWith, ha, h2, min_self]⟩
    rw [Sim.concatenate1, h1]
    simp [bind, Except.bind, pure, Except.pure, ha, h2]

/-! ## C93 -/

/-- **C93** For any number of Schroedinger, Monte Carlo and Lindblad solvers, transfer functions of the library, amplitude
functions acting on each time
step, and any non-empty list of operation, state, leakage, noise and open system infidelities `wrapped_jac_function` returns an
array, and its entry
`[t][i][j]` is the derivative of entry `i` of what `wrapped_cost_functions` returns with respect to optimisation parameter
`j` of step `t`. -/
theorem c93_gradient (sim : Sim q) (y : Pulse ℝ q) (hnum : sim.numericJacobian = false)
    (hs : ∀ s ∈ sim.solvers, Assembled s y.length) (hne : sim.costFuncs ≠ [])
    (hF : ∀ F ∈ sim.costFuncs, ∃ s, sim.solvers[F.solver]? = some s ∧ Infidelity F s) :
    ∃ sim' J, sim.wrappedJac (some y) = .ok (sim', J) ∧ J.length = y.length ∧
      ∀ t, t < y.length → ∀ j, ∃ C : ℝ → List ℝ,
        (∀ h, ∃ sim'', sim.wrappedCosts (some (shift y t j h)) = .ok (sim'', C h)) ∧
        (∀ h, (C h).length = (J.getD t []).length) ∧
        ∀ i, HasDerivAt (fun h => (C h).getD i 0) ((J.getD t []).getD i 0 j) 0 := by
  obtain ⟨ss, hss⟩ := setSolvers_of (y := y) fun s h => by
    obtain ⟨⟨x, hx, -, hl⟩, -⟩ := (hs s h).run y rfl
    exact setPars_of hx hl
  obtain ⟨Js, h1, h2, h3⟩ := jacLoop_ok hs y rfl hss sim.costFuncs hF
  obtain ⟨J, h4, h5⟩ := concatenate1_of Js (by
    intro h0
    rw [h0] at h2
    exact hne (List.length_eq_zero_iff.mp h2.symm)) h3
  have hJ : sim.wrappedJac (some y) = .ok ({ sim with solvers := ss }, J) := by
    unfold Sim.wrappedJac
    rw [hnum]
    simp [Sim.given, hss, h1, h4, bind, Except.bind, pure, Except.pure]
  refine ⟨_, J, hJ, h5, fun t ht j => ?_⟩
  exact (c55_chain_rule_partial sim _ y J hnum (fun s h => (hs s h).fits) (fun s h => (hs s h).coherent) (fun s h => (hs s h).amp) (fun F hFm s hs' => by
    obtain ⟨s₀, e1, e2⟩ := hF F hFm
    rw [hs'] at e1
    simp only [Option.some.injEq] at e1
    subst e1
    exact e2.correct.1) hJ t ht j).2

/-! ### A case of C93 -/

namespace Ex93

/-- Oversampling by two. -/
noncomputable def base : Base ℝ :=
  { bound := none, oversampling := 2, numY := 0, yTimes := none, numX := 0, xTimes := none }

/-- A qubit with a constant drift and two controls on four time steps. -/
noncomputable def par (L : Lapack (Fin 2)) : SPar (Fin 2) (Fin 2) :=
  ⟨L, .frechet, true, true, .none, 1, List.replicate 4 !![1, 0; 0, -1], [!![0, 1; 1, 0], !![0, -Complex.I; Complex.I, 0]],
    idTf, id, idAmp⟩

/-- The same qubit starting in a state. -/
noncomputable def ket (L : Lapack (Fin 2)) : SPar (Fin 2) (Fin 1) :=
  ⟨L, .frechet, true, true, .none, !![1; 0], List.replicate 4 !![1, 0; 0, -1], [!![0, 1; 1, 0], !![0, -Complex.I; Complex.I, 0]],
    idTf, id, idAmp⟩

/-- Three traces of noise on one operator. -/
noncomputable def traces (L : Lapack (Fin 2)) : MC (Fin 2) (Fin 2) :=
  ⟨(par L).bare.cfg, [!![1, 0; 0, 0]], .int 1, none, 3, ⟨1, 3, 4, fun _ k t => 10 * k + t⟩⟩

theorem sampled (L : Lapack (Fin 2)) : Sampled (traces L) (par L).bare [1, 1, 1, 1] :=
  ⟨rfl, rfl, rfl, rfl, rfl, rfl, by simp [traces]⟩

theorem par_exact {L : Lapack (Fin 2)} (hE : L.ExpmOk) (hF : L.FrechetOk) : Exact (par L) [1, 1, 1, 1] :=
  ⟨by simp [par], rfl, by simp, rfl, rfl, hE, hF, Or.inl ⟨rfl, rfl⟩⟩

/-- `c93_noise_total` applies: systematic errors are neglected, the target is the noiseless final propagator. -/
example (U : Fin 4 → Fin 2 → ℝ) : ∃ (L : Lapack (Fin 2)) (g : Fin 4 → Fin 2 → ℝ),
    mcGrad (fun _ A => A) none 1 false true (traces L) [1, 1, 1, 1] [] [] (rowsOf U) = .ok (rowsOf g) := by
  obtain ⟨L, -, -, hE, hF⟩ := lapack_exists (Fin 2)
  have h := par_exact hE hF
  obtain ⟨g, h1, -⟩ := c93_noise_total (par L).bare [1, 1, 1, 1] h.valid h.stable h.method h.approx h.expm h.frechet h.steps
    (fun V => ⟨_, bare_reach (par L) _ h.steps V⟩) (traces L) (sampled L) (fun _ A => A) none (by simp) false true (Or.inl rfl) 1 [] []
    (fun t k => U t k)
  exact ⟨L, g, h1⟩

theorem drift_hermitian (L : Lapack (Fin 2)) : ∀ H ∈ (par L).drift, H.IsHermitian := by
  intro H hH
  simp [par] at hH
  rw [hH]
  ext i j; fin_cases i <;> fin_cases j <;> simp

theorem ctrl_hermitian (L : Lapack (Fin 2)) : ∀ H ∈ (par L).ctrl, H.IsHermitian := by
  intro H hH
  simp [par] at hH
  rcases hH with rfl | rfl <;> ext i j <;> fin_cases i <;> fin_cases j <;> simp

/-- The qubit with decay and dephasing at constant rates. -/
noncomputable def lossy (L : Lapack (Fin 2 × Fin 2)) : LPar (Fin 2) :=
  ⟨L, .frechet, false, 1, List.replicate 4 !![1, 0; 0, -1], [!![0, 1; 1, 0], !![0, -Complex.I; Complex.I, 0]],
    ⟨none, some [!![0, 1; 0, 0], !![1, 0; 0, -1]], none, none, none, none⟩⟩

/-- Two solvers, amplitudes `sin` of the oversampled parameters, a gate, a state transfer, a leakage, a noise averaged
infidelity and the infidelity of an open system. -/
noncomputable def sim (L : Lapack (Fin 2)) (L' : Lapack (Fin 2 × Fin 2)) (tf : TF ℝ 2) : Sim 2 :=
  { solvers := [⟨2, tf, .unary Real.sin Real.cos, 4, none, none⟩, ⟨2, tf, .identity, 4, none, none⟩]
    costFuncs := [operationCost (par L) [1, 1, 1, 1] (fun _ A => A) none !![0, 1; 1, 0] false 0 "gate",
      stateCost (ket L) [1, 1, 1, 1] none !![0, 1] false 1 "state",
      leakageCost (par L) [1, 1, 1, 1] [0] 1 "leakage",
      noiseCost [1, 1, 1, 1] (traces L) (fun _ A => A) none !![0, 1; 1, 0] false false 0 "noise",
      lindbladCost (lossy L') [1, 1, 1, 1] none !![0, 1; 1, 0] 1 "loss"]
    pulse := none, numTimes := none, numCtrl := none, numericJacobian := false }

theorem tf_exists : ∃ tf : TF ℝ 2, (TF.oversampling base).setTimes [2, 2] = .ok tf ∧ tf.base.numX = 4 := by
  obtain ⟨b, hb⟩ : ∃ b, base.setTimes [2, 2] = .ok b := by
    simp [Base.setTimes, base]
  refine ⟨.oversampling b, by simp [TF.setTimes, hb, bind, Except.bind, pure, Except.pure], ?_⟩
  obtain ⟨x, ps, pe, -, -, -, hs, -, -, hX⟩ := c01_grid_length base b [2, 2] hb
  simp only [base, specPadding, Option.some.injEq, Prod.mk.injEq] at hs
  rw [← hs.1, ← hs.2] at hX
  simpa [TF.base, base] using hX

example : ∃ (L : Lapack (Fin 2)) (L' : Lapack (Fin 2 × Fin 2)) (tf : TF ℝ 2) (sim' : Sim 2) (J : List (List (Fin 2 → ℝ))),
    (sim L L' tf).wrappedJac (some [fun _ => 1, fun _ => 2]) = .ok (sim', J) ∧ J.length = 2 ∧ ∃ C : ℝ → List ℝ,
      (∀ h, ∃ sim'', (sim L L' tf).wrappedCosts (some [fun _ => 1, Function.update (fun _ => 2) 1 (2 + h)]) = .ok (sim'', C h)) ∧
      ∀ i, HasDerivAt (fun h => (C h).getD i 0) ((J.getD 1 []).getD i 0 1) 0 := by
  obtain ⟨L, -, -, hE, hF⟩ := lapack_exists (Fin 2)
  obtain ⟨L', -, -, hE', hF'⟩ := lapack_exists (Fin 2 × Fin 2)
  obtain ⟨tf, ht, hX⟩ := tf_exists
  obtain ⟨sim', J, h1, h2, h3⟩ := c93_gradient (sim L L' tf) [fun _ => 1, fun _ => 2] rfl (by
    intro s hs
    have hs' : s = ⟨2, tf, .unary Real.sin Real.cos, 4, none, none⟩ ∨ s = ⟨2, tf, .identity, 4, none, none⟩ := by
      simpa [sim] using hs
    rcases hs' with rfl | rfl
    · exact ⟨⟨.oversampling base, _, trivial, ht, rfl, hX.symm⟩, fun r => Real.hasDerivAt_sin r, fun y h => by simp at h⟩
    · exact ⟨⟨.oversampling base, _, trivial, ht, rfl, hX.symm⟩, trivial, fun y h => by simp at h⟩) (by simp [sim]) (by
    intro F hFm
    have hFm' : F = operationCost (par L) [1, 1, 1, 1] (fun _ A => A) none !![0, 1; 1, 0] false 0 "gate" ∨
        F = stateCost (ket L) [1, 1, 1, 1] none !![0, 1] false 1 "state" ∨
        F = leakageCost (par L) [1, 1, 1, 1] [0] 1 "leakage" ∨
        F = noiseCost [1, 1, 1, 1] (traces L) (fun _ A => A) none !![0, 1; 1, 0] false false 0 "noise" ∨
        F = lindbladCost (lossy L') [1, 1, 1, 1] none !![0, 1; 1, 0] 1 "loss" := by
      simpa [sim] using hFm
    rcases hFm' with rfl | rfl | rfl | rfl | rfl
    · exact ⟨_, rfl, .operation (par L) [1, 1, 1, 1] (par_exact hE hF) rfl rfl _ none
        (by simp) false (Or.inl rfl) _ _ _ rfl⟩
    · exact ⟨_, rfl, .state (ket L) [1, 1, 1, 1] ⟨by simp [ket], rfl, by simp, rfl, rfl, hE, hF, Or.inl ⟨rfl, rfl⟩⟩ rfl rfl none
        (by simp) _ _ _ _ rfl⟩
    · exact ⟨_, rfl, .leakage (par L) [1, 1, 1, 1] (par_exact hE hF) rfl rfl (drift_hermitian L) (ctrl_hermitian L) (one_mem _) [0]
        (by simp) (by simp) _ _ rfl⟩
    · exact ⟨_, rfl, .noise (par L) [1, 1, 1, 1] (par_exact hE hF) rfl rfl (traces L) (sampled L) _ none (by simp) false false
        (Or.inl rfl) _ _ _ rfl⟩
    · exact ⟨_, rfl, .lindblad (lossy L') [1, 1, 1, 1] ⟨by simp [lossy], rfl, by simp, rfl, hE', hF', ctrl_hermitian L⟩ rfl rfl _
        (.lindblad _ (by simp) none rfl rfl) none _ _ _ rfl⟩)
  obtain ⟨C, h4, -, h5⟩ := h3 1 (by simp) 1
  exact ⟨L, L', tf, sim', J, h1, h2, C, h4, h5⟩

end Ex93

end Verif.Sim
