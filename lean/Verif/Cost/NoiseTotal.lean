import Verif.Cost.Total
import Verif.Solver.NoiseTrace
import Mathlib.Analysis.Calculus.Deriv.Star

/-!
# The noise averaged infidelity on the Monte Carlo solver

`OperationNoiseInfidelity` reading a `SchroedingerSMonteCarlo` solver: its gradient is the total derivative of its cost with
respect to all control amplitudes.
-/

namespace Verif.Cost
open Verif Verif.Operator Verif.Solver Matrix

section
variable {n : Type} [Fintype n] [DecidableEq n]

/-! ## Model -/

/-- `OperationNoiseInfidelity.costs()` (cost_functions.py:1402-1422) with a Monte Carlo solver: the reads of the forward
propagators without and with noise. (On a Monte Carlo solver either read computes both; the order matters only for which
exception is raised.) -/
noncomputable def mcCosts (cl : Closest) (cs : Option (List n)) (T : Matrix (CompIdx cs) (CompIdx cs) ℂ) (mcu nse : Bool)
    (M : MC n n) (times : List ℝ) (y x u : Pulse) : Except PyErr ℝ := do
  let clean ← specFwd M.base times u
  let noise ← fwdNoise M times y x u
  noiseCosts cl cs T mcu nse clean noise

/-- The traces the gradient reads, cost_functions.py:1433-1438. -/
noncomputable def mcTraces (M : MC n n) (times : List ℝ) (y x u : Pulse) : Except PyErr (List (Trace n n)) := do
  let f ← fwdNoise M times y x u
  let d ← derivsNoise M times y x u
  let dP ← allOk (d.map plainDerivs)
  let r ← revNoise M times y x u
  pure (((f.zip dP).zip r).map fun q => ⟨q.1.1, q.1.2, q.2⟩)

/-- What the gradient reads without noise, cost_functions.py:1444-1450. -/
noncomputable def mcClean (M : MC n n) (times : List ℝ) (u : Pulse) : Except PyErr (Trace n n) := do
  let f ← specFwd M.base times u
  let d ← specDeriv M.base times u
  let dP ← plainDerivs d
  let r ← specRev M.base times u
  pure ⟨f, dP, r⟩

/-- `OperationNoiseInfidelity.grad()` (cost_functions.py:1424-1454) with a Monte Carlo solver. -/
noncomputable def mcGrad (cl : Closest) (cs : Option (List n)) (T : Matrix (CompIdx cs) (CompIdx cs) ℂ) (mcu nse : Bool)
    (M : MC n n) (times : List ℝ) (y x u : Pulse) : Except PyErr (List (List ℝ)) := do
  let clean ← mcClean M times u
  let noise ← mcTraces M times y x u
  noiseGrad cl cs T mcu nse times.length M.base.nCtrl clean noise

/-! ## Specification -/

/-- The mean over the traces of one minus the entanglement fidelity of the final propagator of the trace, with the target or
the final propagator without noise. -/
noncomputable def noiseInfidelity (cl : Closest) (cs : Option (List n)) (T : Matrix (CompIdx cs) (CompIdx cs) ℂ)
    (mcu nse : Bool) (clean : Matrix n n ℂ) (K : Nat) (final : Nat → Matrix n n ℂ) : ℝ :=
  (∑ k : Fin K, (1 - entFid cl cs (if nse then truncTo cl cs mcu clean else T) (final k) mcu)) / K

/-! ## Lemmas -/

theorem MatDiff.conjTranspose {E : Type} [NormedAddCommGroup E] [NormedSpace ℝ E] {a b : Type} [Fintype a] [Fintype b]
    {F : E → Matrix a b ℂ} (hF : MatDiff F) : MatDiff fun x => (F x)ᴴ := fun i j => (hF j i).star

theorem truncTo_diff {E : Type} [NormedAddCommGroup E] [NormedSpace ℝ E] (cl : Closest) (cs : Option (List n)) (mcu : Bool)
    (hm : mcu = false ∨ cs = none) {F : E → Matrix n n ℂ} (hF : MatDiff F) : MatDiff fun x => truncTo cl cs mcu (F x) := by
  cases cs with
  | none => exact hF
  | some l =>
    rcases hm with rfl | h
    · exact fun i j => hF (l.get i) (l.get j)
    · simp at h

/-- The noise infidelity is a differentiable function of differentiable final propagators. -/
theorem noiseInfidelity_diff {E : Type} [NormedAddCommGroup E] [NormedSpace ℝ E] (cl : Closest) (cs : Option (List n))
    (T : Matrix (CompIdx cs) (CompIdx cs) ℂ) (mcu nse : Bool) (hm : mcu = false ∨ cs = none) (K : Nat)
    {C : E → Matrix n n ℂ} (hC : MatDiff C) {F : Nat → E → Matrix n n ℂ} (hF : ∀ k, MatDiff (F k)) :
    Differentiable ℝ fun x => noiseInfidelity cl cs T mcu nse (C x) K fun k => F k x := by
  have hT : MatDiff fun x => (if nse then truncTo cl cs mcu (C x) else T)ᴴ := by
    cases nse
    · exact MatDiff.const (a := CompIdx cs) (b := CompIdx cs) Tᴴ
    · exact (truncTo_diff cl cs mcu hm hC).conjTranspose
  unfold noiseInfidelity entFid
  simp only [div_eq_mul_inv]
  refine Differentiable.mul_const (Differentiable.fun_sum fun k _ => ?_) _
  refine Differentiable.const_sub (Differentiable.mul_const (Differentiable.mul_const ?_ _) _) _
  exact differentiable_norm_sq (hT.mul (truncTo_diff cl cs mcu hm (hF k))).trace

/-- What a Monte Carlo solver has to fulfil: it extends the solver `p` with one sample per noise operator, trace and time
step, the noise does not depend on the controls, and everything runs in one process (for the derivatives). -/
structure Sampled (M : MC n n) (p : SPar n n) (τ : List ℝ) : Prop where
  base : M.base = p.cfg
  procs : M.procs = .int 1
  amp : M.noiseAmp = none
  ops : M.samples.d0 = M.hNoise.length
  traces : M.samples.d1 = M.nTraces
  times : M.samples.d2 = (p.xTimes τ).length
  some_trace : 0 < M.nTraces

/-- The parts of a trace read from a fresh solver. -/
theorem trace_of_fresh (p : SPar n n) (τ : List ℝ) (hv : p.Valid τ) (hst : Stable p.cfg) (hmeth : p.method = .frechet)
    (happ : p.approx = .none) (hne : p.xTimes τ ≠ []) (y u : Pulse) (hu : ampsOf p.cfg τ y = some u) :
    ∃ tr : Trace n n, (readFwd p.cfg (fresh p.cfg τ y)).1 = .ok tr.fwd ∧ (readRev p.cfg (fresh p.cfg τ y)).1 = .ok tr.rev ∧
      (∃ d, (readDeriv p.cfg (fresh p.cfg τ y)).1 = .ok d ∧ plainDerivs d = .ok tr.dP) ∧
      tr.Of p.init (p.steps τ u) p.ctrl.length ∧
      (∀ t c, t < (p.xTimes τ).length → c < p.ctrl.length → tr.derivAt t c = some (p.dstep τ u t c)) ∧
      specFwd p.cfg (p.xTimes τ) u = .ok tr.fwd ∧ specRev p.cfg (p.xTimes τ) u = .ok tr.rev ∧
      ∃ d, specDeriv p.cfg (p.xTimes τ) u = .ok d ∧ plainDerivs d = .ok tr.dP := by
  have hr := ready_fresh p τ y u hu
  obtain ⟨f, s1, e1, hf, -⟩ := hr.fwd hv hst
  obtain ⟨r, s2, e2, hrv, -⟩ := hr.rev hv hst hne
  obtain ⟨d, s3, e3, hd, -⟩ := hr.deriv hv hst hmeth happ
  have k1 := (readFwd_ok hst hr.inv).1
  have k2 := (readRev_ok hst hr.inv).1
  have k3 := (readDeriv_ok hst hr.inv).1
  rw [hr.times] at k1 k2 k3
  refine ⟨⟨f, (List.range p.ctrl.length).map fun c =>
    (List.range (p.xTimes τ).length).map fun t => p.dstep τ u t c, r⟩, by rw [e1], by rw [e2], ⟨d, by rw [e3], hd⟩, ⟨hf, hrv, ?_⟩,
    fun t c ht hc => ?_, by rw [← k1, e1], by rw [← k2, e2], d, by rw [← k3, e3], hd⟩
  · refine ⟨by simp, fun row hrow => ?_⟩
    obtain ⟨c, -, rfl⟩ := List.mem_map.mp hrow
    simp [steps_length]
  · simp [Trace.derivAt, List.getElem?_range hc, List.getElem?_range ht]

/-- Everything the cost function and its gradient read from a Monte Carlo solver. -/
theorem mc_reads (p : SPar n n) (τ : List ℝ) (hv : p.Valid τ) (hst : Stable p.cfg) (hmeth : p.method = .frechet)
    (happ : p.approx = .none) (hne : p.xTimes τ ≠ []) (M : MC n n) (hM : Sampled M p τ) (y u y' x : Pulse)
    (hu : ampsOf p.cfg τ y = some u) :
    ∃ (clean : Trace n n) (noise : List (Trace n n)), mcClean M (p.xTimes τ) u = .ok clean ∧
      specFwd M.base (p.xTimes τ) u = .ok clean.fwd ∧
      clean.Of p.init (p.steps τ u) p.ctrl.length ∧
      (∀ t c, t < (p.xTimes τ).length → c < p.ctrl.length → clean.derivAt t c = some (p.dstep τ u t c)) ∧
      mcTraces M (p.xTimes τ) y' x u = .ok noise ∧ fwdNoise M (p.xTimes τ) y' x u = .ok (noise.map Trace.fwd) ∧
      noise.length = M.nTraces ∧
      ∀ k (hk : k < noise.length), noise[k].Of p.init ((p.noisy M.hNoise M.samples k).steps τ u) p.ctrl.length ∧
        ∀ t c, t < (p.xTimes τ).length → c < p.ctrl.length →
          noise[k].derivAt t c = some ((p.noisy M.hNoise M.samples k).dstep τ u t c) := by
  obtain ⟨clean, -, -, -, c1, c2, c3, c4, d, c5, c6⟩ := trace_of_fresh p τ hv hst hmeth happ hne y u hu
  have hk := fun k => trace_of_fresh (p.noisy M.hNoise M.samples k) τ (SPar.noisy_valid hv _ _ _) (SPar.noisy_stable hst _ _ _)
    hmeth happ hne y u hu
  choose tr t1 t2 t3 t4 t5 _ _ _ using hk
  obtain ⟨ps, f, r, -, e2, e3, -, l2, l3, e4⟩ := c94_traces p τ hv y u y' x hu hne M hM.base (Or.inl hM.procs) hM.amp hM.ops
    hM.traces hM.times
  obtain ⟨dd, e5, l5, e6⟩ := c94_derivatives p τ hv hst happ y u y' x hu M hM.base hM.procs hM.amp hM.ops hM.traces hM.times
  have hf : f = (List.range M.nTraces).map fun k => (tr k).fwd := by
    refine List.ext_getElem (by simp [l2]) fun k h1 h2 => ?_
    obtain ⟨_, fk, _, -, a1, -, -, a2, -⟩ := e4 k (by simpa using h2)
    rw [t1 k] at a2
    rw [List.getElem?_eq_getElem h1] at a1
    simp only [Except.ok.injEq] at a2
    simp [Option.some.inj a1, a2]
  have hr : r = (List.range M.nTraces).map fun k => (tr k).rev := by
    refine List.ext_getElem (by simp [l3]) fun k h1 h2 => ?_
    obtain ⟨_, _, rk, -, -, a1, -, -, a2⟩ := e4 k (by simpa using h2)
    rw [t2 k] at a2
    rw [List.getElem?_eq_getElem h1] at a1
    simp only [Except.ok.injEq] at a2
    simp [Option.some.inj a1, a2]
  have hdP : allOk (dd.map plainDerivs) = .ok ((List.range M.nTraces).map fun k => (tr k).dP) := by
    have : dd.map plainDerivs = (List.range M.nTraces).map fun k => (.ok (tr k).dP : Except PyErr _) := by
      refine List.ext_getElem (by simp [l5]) fun k h1 h2 => ?_
      obtain ⟨dk, a1, a2⟩ := e6 k (by simpa using h2)
      obtain ⟨dk', a3, a4⟩ := t3 k
      rw [a3] at a2
      simp only [Except.ok.injEq] at a2
      have h1' : k < dd.length := by simpa using h1
      rw [List.getElem?_eq_getElem h1'] at a1
      rw [List.getElem_map, List.getElem_map, List.getElem_range, Option.some.inj a1, ← a2, a4]
    rw [this]
    exact allOk_map _ _ _ fun k _ => rfl
  have hz : ((((List.range M.nTraces).map fun k => (tr k).fwd).zip ((List.range M.nTraces).map fun k => (tr k).dP)).zip
      ((List.range M.nTraces).map fun k => (tr k).rev)).map (fun q => (⟨q.1.1, q.1.2, q.2⟩ : Trace n n)) =
      (List.range M.nTraces).map tr := by
    refine List.ext_getElem (by simp) fun k h1 h2 => ?_
    simp
  refine ⟨clean, (List.range M.nTraces).map tr, ?_, by rw [hM.base]; exact c3, c1, c2, ?_, ?_, by simp, fun k hk => ?_⟩
  · unfold mcClean
    rw [hM.base, c3, c4, c5]
    simp only [bind, Except.bind, c6, pure, Except.pure]
  · unfold mcTraces
    rw [e2, e5, e3]
    simp only [bind, Except.bind, hdP, pure, Except.pure]
    rw [hf, hr, hz]
  · rw [e2, hf, List.map_map]
    rfl
  · simp only [List.getElem_map, List.getElem_range]
    exact ⟨t4 k, t5 k⟩

/-! ## Total derivative -/

/-- **C93** The gradient of `OperationNoiseInfidelity` with a Monte Carlo solver is the total derivative of its cost with
respect to all amplitudes, for every number of traces and both settings of `neglect_systematic_errors`. -/
theorem c93_noise_total (p : SPar n n) (τ : List ℝ) (hv : p.Valid τ) (hst : Stable p.cfg)
    (hmeth : p.method = .frechet) (happ : p.approx = .none) (hE : p.L.ExpmOk) (hF : p.L.FrechetOk) (hne : p.xTimes τ ≠ [])
    (hreach : ∀ U : Fin (p.xTimes τ).length → Fin p.ctrl.length → ℝ, ∃ y, ampsOf p.cfg τ y = some (rowsOf U))
    (M : MC n n) (hM : Sampled M p τ)
    (cl : Closest) (cs : Option (List n)) (hcs : cs ≠ some []) (mcu nse : Bool) (hm : mcu = false ∨ cs = none)
    (T : Matrix (CompIdx cs) (CompIdx cs) ℂ) (y x : Pulse) (U : Fin (p.xTimes τ).length → Fin p.ctrl.length → ℝ) :
    ∃ g : Fin (p.xTimes τ).length → Fin p.ctrl.length → ℝ,
      mcGrad cl cs T mcu nse M (p.xTimes τ) y x (rowsOf U) = .ok (rowsOf g) ∧
      (∀ V : Fin (p.xTimes τ).length → Fin p.ctrl.length → ℝ, mcCosts cl cs T mcu nse M (p.xTimes τ) y x (rowsOf V) =
        .ok (noiseInfidelity cl cs T mcu nse (p.final τ (rowsOf V)) M.nTraces fun k =>
          (p.noisy M.hNoise M.samples k).final τ (rowsOf V))) ∧
      ∃ L : (Fin (p.xTimes τ).length → Fin p.ctrl.length → ℝ) →L[ℝ] ℝ,
        HasFDerivAt (fun V : Fin (p.xTimes τ).length → Fin p.ctrl.length → ℝ =>
          noiseInfidelity cl cs T mcu nse (p.final τ (rowsOf V)) M.nTraces fun k =>
            (p.noisy M.hNoise M.samples k).final τ (rowsOf V)) L U ∧ ∀ V, L V = ∑ t, ∑ k, g t k * V t k := by
  have hnc : 0 < p.ctrl.length := List.length_pos_iff.mpr hv.1
  have hcost : ∀ V : Fin (p.xTimes τ).length → Fin p.ctrl.length → ℝ, mcCosts cl cs T mcu nse M (p.xTimes τ) y x (rowsOf V) =
      .ok (noiseInfidelity cl cs T mcu nse (p.final τ (rowsOf V)) M.nTraces fun k =>
        (p.noisy M.hNoise M.samples k).final τ (rowsOf V)) := by
    intro V
    obtain ⟨y₀, hy₀⟩ := hreach V
    obtain ⟨clean, noise, -, e2, e3, -, -, e4, e5, e6⟩ := mc_reads p τ hv hst hmeth happ hne M hM y₀ _ y x hy₀
    have hlast : clean.fwd.getLast? = some (p.final τ (rowsOf V)) := final_last e3.forward
    unfold mcCosts
    rw [e2, e4]
    simp only [bind, Except.bind]
    unfold noiseCosts
    have : effTarget cl cs T mcu nse clean.fwd =
        .ok (if nse then truncTo cl cs mcu (p.final τ (rowsOf V)) else T) := by
      unfold effTarget
      cases nse
      · rfl
      · simp only [if_true, last_ok hlast]; rfl
    rw [this]
    simp only [bind, Except.bind]
    have hmap : noise.map Trace.fwd = (List.finRange M.nTraces).map fun k : Fin M.nTraces => (noise[(k : Nat)]'(by rw [e5]; exact k.2)).fwd := by
      refine List.ext_getElem (by simp [e5]) fun i h1 h2 => ?_
      simp
    rw [hmap, List.map_map, allOk_map (List.finRange M.nTraces) _ (fun k : Fin M.nTraces =>
      1 - entFid cl cs (if nse then truncTo cl cs mcu (p.final τ (rowsOf V)) else T)
        ((p.noisy M.hNoise M.samples k).final τ (rowsOf V)) mcu)]
    · simp only [pure, Except.pure, mean, noiseInfidelity, List.length_map, List.length_finRange]
      rw [← List.sum_ofFn, List.ofFn_eq_map]
    · intro k _
      have hl : (noise[(k : Nat)]'(by rw [e5]; exact k.2)).fwd.getLast? = some ((p.noisy M.hNoise M.samples k).final τ (rowsOf V)) :=
        final_last (e6 k (by rw [e5]; exact k.2)).1.forward
      simp only [Function.comp, last_ok hl]
      rfl
  have hdiff : Differentiable ℝ fun V : Fin (p.xTimes τ).length → Fin p.ctrl.length → ℝ =>
      noiseInfidelity cl cs T mcu nse (p.final τ (rowsOf V)) M.nTraces fun k =>
        (p.noisy M.hNoise M.samples k).final τ (rowsOf V) :=
    noiseInfidelity_diff cl cs T mcu nse hm M.nTraces (final_diff p τ hmeth hE)
      (F := fun k V => (p.noisy M.hNoise M.samples k).final τ (rowsOf V))
      (fun k => final_diff (p.noisy M.hNoise M.samples k) τ hmeth hE)
  obtain ⟨y₀, hy₀⟩ := hreach U
  obtain ⟨clean, noise, e1, e2, e3, e3', e4, e5, e6, e7⟩ := mc_reads p τ hv hst hmeth happ hne M hM y₀ _ y x hy₀
  obtain ⟨hul, hrow⟩ := ampsOf_shape p.cfg τ y₀ _ hy₀
  obtain ⟨g, g1, g2, g3⟩ := c48_gradient_partial cl cs hcs mcu nse hm T p.init (p.xTimes τ).length p.ctrl.length hnc clean
    (p.steps τ (rowsOf U)) e3 (steps_length _ _ _) noise
    ((List.range M.nTraces).map fun k => (p.noisy M.hNoise M.samples k).steps τ (rowsOf U)) (by
      intro k hk ps hps
      have hk' : k < M.nTraces := by omega
      rw [List.getElem?_map, List.getElem?_range hk', Option.map_some, Option.some.injEq] at hps
      subst hps
      exact ⟨(e7 k hk).1, steps_length _ _ _⟩) (by simp [e6])
  obtain ⟨G, hG, L, hL1, hL2⟩ := total_of_entries _ hdiff U g g2 (fun t c => by
    choose Y hY using hreach
    have hx := fun z : ℝ => mc_reads p τ hv hst hmeth happ hne M hM _ _ y x (hY (U + z • unitAmp t c))
    choose cl' no' _ x2 x3 _ _ x5 x6 x7 using hx
    have hs : NoiseSweep p.init clean (p.steps τ (rowsOf U)) noise
        ((List.range M.nTraces).map fun k => (p.noisy M.hNoise M.samples k).steps τ (rowsOf U)) t c
        (fun z => (cl' z).fwd) (fun z => (no' z).map Trace.fwd) := by
      refine ⟨?_, ?_, ?_⟩
      · exact ⟨_, _, sweep_of p τ (rowsOf U) t c hul hrow t.2 c.2 hmeth hE hF _ (fun z => by
          rw [rowsOf_bump]; exact (x3 z).forward), e3' t c t.2 c.2⟩
      · exact ⟨by simp [e6], fun z => by simp [x6, e6]⟩
      · intro k hk ps hps
        have hk' : k < M.nTraces := by omega
        rw [List.getElem?_map, List.getElem?_range hk', Option.map_some, Option.some.injEq] at hps
        subst hps
        refine ⟨_, _, sweep_of (p.noisy M.hNoise M.samples k) τ (rowsOf U) t c hul hrow t.2 c.2 hmeth hE hF _ (fun z => ?_),
          (e7 k hk).2 t c t.2 c.2⟩
        have hkz : k < (no' z).length := by rw [x6]; exact hk'
        rw [rowsOf_bump, List.getD_eq_getElem _ _ (by simpa using hkz), List.getElem_map]
        exact (x7 z k hkz).1.forward
    obtain ⟨G, cost, k1, k2, k3⟩ := g3 t c _ _ hs
    refine ⟨G, k1, ?_⟩
    have hcx : cost = fun z => noiseInfidelity cl cs T mcu nse (p.final τ (rowsOf (U + z • unitAmp t c))) M.nTraces fun k =>
        (p.noisy M.hNoise M.samples k).final τ (rowsOf (U + z • unitAmp t c)) := by
      funext z
      have h1 := hcost (U + z • unitAmp t c)
      unfold mcCosts at h1
      rw [x2 z, x5 z] at h1
      simp only [bind, Except.bind] at h1
      rw [k2 z] at h1
      exact Except.ok.inj h1
    rw [hcx] at k3
    exact k3)
  refine ⟨G, ?_, hcost, L, hL1, hL2⟩
  unfold mcGrad
  rw [e1, e4]
  simp only [bind, Except.bind]
  rw [show M.base.nCtrl = p.ctrl.length by rw [hM.base]; rfl, g1, hG]

end
end Verif.Cost
