import Verif.Sim.Schroed
import Mathlib.Analysis.Normed.Algebra.MatrixExponential
import Mathlib.Analysis.SpecialFunctions.Trigonometric.Deriv

/-!
# The gradient when the noise amplitudes depend on the pulse

A noise amplitude function (`SchroedingerSMonteCarlo`) and the noise on the controls (`SchroedingerSMCControlNoise`) make the
noise depend on the optimisation parameters.  The derivative computed by the solver does not see this.
-/

namespace Verif.Sim
open Verif Verif.Transfer Verif.Operator Verif.Solver Verif.Cost Matrix

section
variable {n : Type} [Fintype n] [DecidableEq n] {q : Nat}

/-! ## Model -/

/-- `OperationNoiseInfidelity` (cost_functions.py:1319-1454) on a `SchroedingerSMCControlNoise` solver
(solver_algorithms.py:1481-1569), as the simulator sees it.  The noise amplitude function reads the transferred parameters
stored by `set_optimization_parameters` (solver_algorithms.py:379-382). -/
noncomputable def controlNoiseCost (p : SPar n n) (τ : List ℝ) (N : Nat) (S : Arr3) (cl : Closest) (cs : Option (List n))
    (T : Matrix (CompIdx cs) (CompIdx cs) ℂ) (mcu nse : Bool) (i : Nat) (label : String) : CostFn q :=
  ⟨i, [label], fun s => match s.optPars, s.amps with
      | some y, some u => do
        let (_, x) ← s.tf.call y
        let v ← mcCosts cl cs T mcu nse (mcControlNoise p (.int 1) N S) τ (y.map fun r => List.ofFn r)
          (x.map fun r => List.ofFn r) (u.map fun r => List.ofFn r)
        pure [v]
      | _, _ => .error .valueError,
    fun s => match s.optPars, s.amps with
      | some y, some u => do
        let (_, x) ← s.tf.call y
        let g ← mcGrad cl cs T mcu nse (mcControlNoise p (.int 1) N S) τ (y.map fun r => List.ofFn r)
          (x.map fun r => List.ofFn r) (u.map fun r => List.ofFn r)
        pure (.flat (g.map fun row k => row.getD k 0))
      | _, _ => .error .valueError⟩

/-! ## Specification -/

/-- The Monte Carlo solver whose noise amplitudes are the given numbers, whatever the pulse. -/
def _root_.Verif.Solver.MC.frozen (M : MC n n) (A : Arr3) : MC n n :=
  ⟨M.base, M.hNoise, M.procs, none, M.nTraces, A.transpose⟩

/-! ## Lemmas -/

theorem frozen_run (M : MC n n) (y x u : Solver.Pulse) (A : Arr3) (h : noiseAmplitudes M y x u = .ok A) (wd : Bool)
    (times : List ℝ) : noiseRun M wd times y x u = noiseRun (M.frozen A) wd times y x u := by
  have hd : dynGenNoise M y x u = dynGenNoise (M.frozen A) y x u := by
    unfold dynGenNoise
    rw [h]
    rfl
  unfold noiseRun
  rw [hd]
  rfl

theorem frozen_reads (M : MC n n) (y x u : Solver.Pulse) (A : Arr3) (h : noiseAmplitudes M y x u = .ok A) (times : List ℝ)
    (cl : Closest) (cs : Option (List n)) (T : Matrix (CompIdx cs) (CompIdx cs) ℂ) (mcu nse : Bool) :
    mcCosts cl cs T mcu nse M times y x u = mcCosts cl cs T mcu nse (M.frozen A) times y x u ∧
      mcGrad cl cs T mcu nse M times y x u = mcGrad cl cs T mcu nse (M.frozen A) times y x u := by
  have hr := frozen_run M y x u A h
  have hp : propsNoise M times y x u = propsNoise (M.frozen A) times y x u := by
    unfold propsNoise; rw [hr]; rfl
  have hf : fwdNoise M times y x u = fwdNoise (M.frozen A) times y x u := by
    unfold fwdNoise; rw [hp]; rfl
  have hv : revNoise M times y x u = revNoise (M.frozen A) times y x u := by
    unfold revNoise; rw [hp]; rfl
  have hd : derivsNoise M times y x u = derivsNoise (M.frozen A) times y x u := by
    unfold derivsNoise; rw [hr, hr]; rfl
  have ht : mcTraces M times y x u = mcTraces (M.frozen A) times y x u := by
    unfold mcTraces; rw [hf, hv, hd]
  constructor
  · unfold mcCosts; rw [hf]; rfl
  · unfold mcGrad; rw [ht]; rfl

/-! ## What the gradient is -/

/-- **C95** For every noise amplitude function: the gradient is the total derivative of the noise infidelity whose noise
amplitudes are held at the values they have for the current pulse. -/
theorem c95_frozen_partial (p : SPar n n) (τ : List ℝ) (h : Exact p τ) (M : MC n n) (hb : M.base = p.bare.cfg)
    (hp : M.procs = .int 1) (hN : 0 < M.nTraces) (y x : Solver.Pulse) (U : Fin τ.length → Fin p.ctrl.length → ℝ) (A : Arr3)
    (hA : noiseAmplitudes M y x (rowsOf U) = .ok A) (h0 : A.d0 = τ.length) (h1 : A.d1 = M.nTraces)
    (h2 : A.d2 = M.hNoise.length)
    (cl : Closest) (cs : Option (List n)) (hcs : cs ≠ some []) (mcu nse : Bool) (hm : mcu = false ∨ cs = none)
    (T : Matrix (CompIdx cs) (CompIdx cs) ℂ) :
    ∃ g : Fin τ.length → Fin p.ctrl.length → ℝ, mcGrad cl cs T mcu nse M τ y x (rowsOf U) = .ok (rowsOf g) ∧
      mcCosts cl cs T mcu nse M τ y x (rowsOf U) =
        .ok (noiseInfidelity cl cs T mcu nse (p.bare.final τ (rowsOf U)) M.nTraces fun k =>
          (p.bare.noisy M.hNoise A.transpose k).final τ (rowsOf U)) ∧
      ∃ L : (Fin τ.length → Fin p.ctrl.length → ℝ) →L[ℝ] ℝ,
        HasFDerivAt (fun V : Fin τ.length → Fin p.ctrl.length → ℝ =>
          noiseInfidelity cl cs T mcu nse (p.bare.final τ (rowsOf V)) M.nTraces fun k =>
            (p.bare.noisy M.hNoise A.transpose k).final τ (rowsOf V)) L U ∧ ∀ V, L V = ∑ t, ∑ k, g t k * V t k := by
  obtain ⟨e1, e2⟩ := frozen_reads M y x (rowsOf U) A hA τ cl cs T mcu nse
  obtain ⟨g, g1, g2, g3⟩ := c93_noise_total p.bare τ h.valid h.stable h.method h.approx h.expm h.frechet h.steps
    (fun V => ⟨_, bare_reach p τ h.steps V⟩) (M.frozen A) ⟨hb, hp, rfl, h2, h1, h0, hN⟩ cl cs hcs mcu nse hm T y x U
  exact ⟨g, e2.trans g1, e1.trans (g2 U), g3⟩

/-- Two arrays of samples that agree on the cells of trace `k` give the same trace. -/
theorem noisy_congr (p : SPar n n) (hN : List (Matrix n n ℂ)) (A B : Arr3) (k : Nat)
    (h : ∀ t j, t < p.drift.length → j < hN.length → A.val j k t = B.val j k t) : p.noisy hN A k = p.noisy hN B k := by
  have : (p.drift.zipIdx.map fun q => q.1 + noiseHam hN A k q.2) = p.drift.zipIdx.map fun q => q.1 + noiseHam hN B k q.2 := by
    refine List.map_congr_left fun q hq => ?_
    obtain ⟨i, hi, rfl⟩ := List.mem_iff_getElem.mp hq
    rw [List.length_zipIdx] at hi
    simp only [List.getElem_zipIdx, noiseHam]
    congr 1
    refine Finset.sum_congr rfl fun j _ => ?_
    rw [h (0 + i) j (by omega) j.2]
  unfold SPar.noisy
  rw [this]

theorem stepControls_bare (p : SPar n n) (G : Matrix n n ℂ) (τ : ℝ) (Ds : List (Matrix n n ℂ)) (P : Option (Matrix n n ℂ)) :
    stepControls p.cfg G τ Ds P = stepControls p.bare.cfg G τ Ds P := by
  induction Ds generalizing P with
  | nil => rfl
  | cons D Ds ih =>
    simp only [stepControls, ih]
    rfl

/-- The object of `mcControlNoise` on the bare solver computes the same. -/
theorem controlNoise_bare (p : SPar n n) (N : Nat) (S : Arr3) (cl : Closest) (cs : Option (List n))
    (T : Matrix (CompIdx cs) (CompIdx cs) ℂ) (mcu nse : Bool) (times : List ℝ) (y x u : Solver.Pulse) :
    mcCosts cl cs T mcu nse (mcControlNoise p (.int 1) N S) times y x u =
        mcCosts cl cs T mcu nse ⟨p.bare.cfg, p.ctrl, .int 1, some (controlNoiseAmp p.amp p.ctrl.length), N, S⟩ times y x u ∧
      mcGrad cl cs T mcu nse (mcControlNoise p (.int 1) N S) times y x u =
        mcGrad cl cs T mcu nse ⟨p.bare.cfg, p.ctrl, .int 1, some (controlNoiseAmp p.amp p.ctrl.length), N, S⟩ times y x u := by
  set M' : MC n n := ⟨p.bare.cfg, p.ctrl, .int 1, some (controlNoiseAmp p.amp p.ctrl.length), N, S⟩ with hM'
  have s1 : ∀ g ds, stepDeriv p.cfg g ds times = stepDeriv p.bare.cfg g ds times := by
    intro g ds
    funext t
    unfold stepDeriv
    split
    · rw [stepControls_bare]; rfl
    · rfl
  have s2 : cellsD p.cfg times u = cellsD p.bare.cfg times u := by
    unfold cellsD
    rw [s1]
    rfl
  have s3 : cells p.cfg times u = cells p.bare.cfg times u := by
    unfold cells
    rw [s2]
    rfl
  have s4 : specFwd p.cfg times u = specFwd p.bare.cfg times u := by
    unfold specFwd
    rw [s3]
    rfl
  have s5 : specRev p.cfg times u = specRev p.bare.cfg times u := by
    unfold specRev
    rw [s3]
  have s6 : specDeriv p.cfg times u = specDeriv p.bare.cfg times u := by
    unfold specDeriv
    rw [s2]
    rfl
  have s7 : ∀ wd g, traceRun p.cfg wd times u g = traceRun p.bare.cfg wd times u g := by
    intro wd g
    unfold traceRun
    rw [s1]
    rfl
  have r1 : ∀ wd, noiseRun (mcControlNoise p (.int 1) N S) wd times y x u = noiseRun M' wd times y x u := by
    intro wd
    unfold noiseRun
    simp only [mcControlNoise, hM', s7]
    rfl
  have r2 : propsNoise (mcControlNoise p (.int 1) N S) times y x u = propsNoise M' times y x u := by
    unfold propsNoise
    rw [r1]
    rfl
  have r3 : fwdNoise (mcControlNoise p (.int 1) N S) times y x u = fwdNoise M' times y x u := by
    unfold fwdNoise
    rw [r2]
    simp only [mcControlNoise, hM', s4]
    rfl
  have r4 : revNoise (mcControlNoise p (.int 1) N S) times y x u = revNoise M' times y x u := by
    unfold revNoise
    rw [r2]
    simp only [mcControlNoise, hM', s5]
  have r5 : derivsNoise (mcControlNoise p (.int 1) N S) times y x u = derivsNoise M' times y x u := by
    unfold derivsNoise
    rw [r1, r1]
    simp only [mcControlNoise, hM', s6]
    rfl
  constructor
  · unfold mcCosts
    rw [r3]
    simp only [mcControlNoise, hM', s4]
  · unfold mcGrad mcClean mcTraces
    rw [r3, r4, r5]
    simp only [mcControlNoise, hM', s4, s5, s6]
    rfl

theorem noiseInfidelity_congr (cl : Closest) (cs : Option (List n)) (T : Matrix (CompIdx cs) (CompIdx cs) ℂ) (mcu nse : Bool)
    (C : Matrix n n ℂ) (K : Nat) (F G : Nat → Matrix n n ℂ) (h : ∀ k, k < K → F k = G k) :
    noiseInfidelity cl cs T mcu nse C K F = noiseInfidelity cl cs T mcu nse C K G := by
  unfold noiseInfidelity
  congr 1
  exact Finset.sum_congr rfl fun k _ => by rw [h k k.2]

theorem rowsOf_getD {N c : Nat} (V : Fin N → Fin c → ℝ) (t : Fin N) (j : Fin c) :
    ((rowsOf V).getD t []).getD j 0 = V t j := by
  simp [rowsOf]

/-- **C95** For control noise whose effect on the amplitudes does not depend on the pulse (an affine amplitude function), the
gradient is the total derivative of the cost with respect to the amplitudes. Missing: all other amplitude functions, for
which it fails (`c95_violated`). -/
theorem c95_additive_partial (p : SPar n n) (τ : List ℝ) (h : Exact p τ) (N : Nat) (hN : 0 < N) (S D : Arr3) (hS1 : S.d1 = N)
    (hS2 : S.d2 = τ.length)
    (hadd : ∀ (x : Solver.Pulse) (V : Fin τ.length → Fin p.ctrl.length → ℝ) (r : Raw), p.amp x = .ok r → r.rows = rowsOf V →
      ∀ k, k < N → ∃ a, p.amp (noisyPars x S k) = .ok a ∧ a.ndim = 2 ∧ a.cols = p.ctrl.length ∧
        a.rows = rowsOf fun t j => V t j + D.val j k t)
    (cl : Closest) (cs : Option (List n)) (hcs : cs ≠ some []) (mcu nse : Bool) (hm : mcu = false ∨ cs = none)
    (T : Matrix (CompIdx cs) (CompIdx cs) ℂ) (y x : Solver.Pulse) (U : Fin τ.length → Fin p.ctrl.length → ℝ) (r : Raw)
    (hx : x.length = τ.length) (hrow : ∀ row ∈ x, row.length = S.d0) (hr : p.amp x = .ok r) (hU : r.rows = rowsOf U) :
    ∃ (g : Fin τ.length → Fin p.ctrl.length → ℝ) (Φ : (Fin τ.length → Fin p.ctrl.length → ℝ) → ℝ),
      mcGrad cl cs T mcu nse (mcControlNoise p (.int 1) N S) τ y x (rowsOf U) = .ok (rowsOf g) ∧
      (∀ (y' x' : Solver.Pulse) (V : Fin τ.length → Fin p.ctrl.length → ℝ) (r' : Raw), x'.length = τ.length →
        (∀ row ∈ x', row.length = S.d0) → p.amp x' = .ok r' → r'.rows = rowsOf V →
          mcCosts cl cs T mcu nse (mcControlNoise p (.int 1) N S) τ y' x' (rowsOf V) = .ok (Φ V)) ∧
      ∃ L : (Fin τ.length → Fin p.ctrl.length → ℝ) →L[ℝ] ℝ, HasFDerivAt Φ L U ∧ ∀ V, L V = ∑ t, ∑ k, g t k * V t k := by
  have key : ∀ (y' x' : Solver.Pulse) (V : Fin τ.length → Fin p.ctrl.length → ℝ) (r' : Raw), x'.length = τ.length →
      (∀ row ∈ x', row.length = S.d0) → p.amp x' = .ok r' → r'.rows = rowsOf V →
      ∃ g : Fin τ.length → Fin p.ctrl.length → ℝ,
        mcGrad cl cs T mcu nse (mcControlNoise p (.int 1) N S) τ y' x' (rowsOf V) = .ok (rowsOf g) ∧
        mcCosts cl cs T mcu nse (mcControlNoise p (.int 1) N S) τ y' x' (rowsOf V) =
          .ok (noiseInfidelity cl cs T mcu nse (p.bare.final τ (rowsOf V)) N fun k =>
            (p.bare.noisy p.ctrl D k).final τ (rowsOf V)) ∧
        ∃ L : (Fin τ.length → Fin p.ctrl.length → ℝ) →L[ℝ] ℝ,
          HasFDerivAt (fun V : Fin τ.length → Fin p.ctrl.length → ℝ =>
            noiseInfidelity cl cs T mcu nse (p.bare.final τ (rowsOf V)) N fun k =>
              (p.bare.noisy p.ctrl D k).final τ (rowsOf V)) L V ∧ ∀ W, L W = ∑ t, ∑ k, g t k * W t k := by
    intro y' x' V r' hx' hrow' hr' hV
    have ha := hadd x' V r' hr' hV
    have ha' : ∀ k, ∃ a : Raw, k < N → p.amp (noisyPars x' S k) = .ok a ∧ a.ndim = 2 ∧ a.cols = p.ctrl.length ∧
        a.rows = rowsOf fun t j => V t j + D.val j k t := fun k => by
      by_cases hk : k < N
      · obtain ⟨a, h1⟩ := ha k hk
        exact ⟨a, fun _ => h1⟩
      · exact ⟨r', fun h => absurd h hk⟩
    choose a ha'' using ha'
    obtain ⟨hVl, hVr⟩ := rowsOf_shape V
    obtain ⟨A, hA, h0, h1, h2, hval⟩ := controlNoise_amplitudes p (.int 1) N S y' x' (rowsOf V) (hx'.trans hS2.symm) hrow'
      (hVl.trans hx'.symm) hS1 a (fun k hk => (ha'' k hk).1) (fun k hk => ⟨(ha'' k hk).2.1, by
        rw [(ha'' k hk).2.2.2, (rowsOf_shape _).1, hx'], (ha'' k hk).2.2.1⟩)
    have hfin : ∀ k, k < N → p.bare.noisy p.ctrl A.transpose k = p.bare.noisy p.ctrl D k := by
      intro k hk
      refine noisy_congr _ _ _ _ _ fun t j ht hj => ?_
      have ht' : t < τ.length := by rw [← h.drift]; exact ht
      have har := (ha'' k hk).2.2.2
      have e := hval t k j (by omega) (by rw [hVl]; exact ht') (by rw [har, (rowsOf_shape _).1]; exact ht')
        (by rw [List.getD_eq_getElem _ _ (by rw [hVl]; exact ht'), hVr _ (List.getElem_mem _)]; exact hj)
        (by rw [har, List.getD_eq_getElem _ _ (by rw [(rowsOf_shape _).1]; exact ht'),
              (rowsOf_shape _).2 _ (List.getElem_mem _)]; exact hj)
      rw [har, rowsOf_getD (fun t j => V t j + D.val j k t) ⟨t, ht'⟩ ⟨j, hj⟩, rowsOf_getD V ⟨t, ht'⟩ ⟨j, hj⟩] at e
      show A.val t k j = _
      rw [e]
      simp
    obtain ⟨c1, c2⟩ := controlNoise_bare p N S cl cs T mcu nse τ y' x' (rowsOf V)
    obtain ⟨g, g1, g2, L, g3, g4⟩ := c95_frozen_partial p τ h
      ⟨p.bare.cfg, p.ctrl, .int 1, some (controlNoiseAmp p.amp p.ctrl.length), N, S⟩ rfl rfl hN y' x' V A hA (h0.trans hS2)
      (h1.trans hS1) h2 cl cs hcs mcu nse hm T
    have hcongr : ∀ W : Fin τ.length → Fin p.ctrl.length → ℝ, (noiseInfidelity cl cs T mcu nse (p.bare.final τ (rowsOf W)) N fun k =>
        (p.bare.noisy p.ctrl A.transpose k).final τ (rowsOf W)) = noiseInfidelity cl cs T mcu nse (p.bare.final τ (rowsOf W)) N
          fun k => (p.bare.noisy p.ctrl D k).final τ (rowsOf W) := fun W =>
      noiseInfidelity_congr _ _ _ _ _ _ _ _ _ fun k hk => by rw [hfin k hk]
    refine ⟨g, c2.trans g1, ?_, L, ?_, g4⟩
    · rw [c1, g2]
      exact congrArg _ (hcongr V)
    · refine g3.congr_of_eventuallyEq (Filter.Eventually.of_forall fun W => ?_)
      exact (hcongr W).symm
  obtain ⟨g, g1, -, g3⟩ := key y x U r hx hrow hr hU
  refine ⟨g, _, g1, fun y' x' V r' h1 h2 h3 h4 => ?_, g3⟩
  obtain ⟨_, -, e, -⟩ := key y' x' V r' h1 h2 h3 h4
  exact e

/-! ## The gradient is wrong for other amplitude functions -/

namespace Ex95

/-- The amplitude function `u = x²`. -/
noncomputable def square (x : Solver.Pulse) : Raw := ⟨2, 1, x.map fun row => [row.getD 0 0 ^ 2], by simp⟩

/-- A qubit with one control `σ_z` and one time step. -/
noncomputable def par (L : Lapack (Fin 2)) : SPar (Fin 2) (Fin 2) :=
  ⟨L, .frechet, true, true, .none, 1, [0], [!![1, 0; 0, -1]], idTf, id, fun x => .ok (square x)⟩

/-- One trace with one sample. -/
noncomputable def samples (δ : ℝ) : Arr3 := ⟨1, 1, 1, fun _ _ _ => δ⟩

theorem exact {L : Lapack (Fin 2)} (hE : L.ExpmOk) (hF : L.FrechetOk) : Exact (par L) [1] :=
  ⟨by simp [par], rfl, by simp, rfl, rfl, hE, hF, Or.inl ⟨rfl, rfl⟩⟩

/-- The simulator: no transfer function, amplitude `x²` with derivative `2 x`, target identity. -/
noncomputable def sim (L : Lapack (Fin 2)) (δ : ℝ) : Sim 1 :=
  { solvers := [⟨1, .identity ⟨none, 1, 0, none, 0, none⟩, .unary (fun x => x ^ 2) (fun x => 2 * x), 1, none, none⟩]
    costFuncs := [controlNoiseCost (par L) [1] 1 (samples δ) (fun _ A => A) none 1 false false 0 "noise"]
    pulse := none, numTimes := none, numCtrl := none, numericJacobian := false }

theorem reads {L : Lapack (Fin 2)} (hE : L.ExpmOk) (hF : L.FrechetOk) (δ x : ℝ) (y : Solver.Pulse) :
    ∃ g : Fin 1 → Fin 1 → ℝ,
      mcGrad (fun _ A => A) none 1 false false (mcControlNoise (par L) (.int 1) 1 (samples δ)) [1] y [[x]] [[x ^ 2]] =
        .ok (rowsOf g) ∧
      mcCosts (fun _ A => A) none 1 false false (mcControlNoise (par L) (.int 1) 1 (samples δ)) [1] y [[x]] [[x ^ 2]] =
        .ok (1 - Real.cos ((x + δ) ^ 2) ^ 2) := by
  have hrows : ([[x ^ 2]] : Solver.Pulse) =
      rowsOf fun (_ : Fin ([1] : List ℝ).length) (_ : Fin (par L).ctrl.length) => x ^ 2 := by
    show _ = List.ofFn fun _ : Fin 1 => List.ofFn fun _ : Fin 1 => x ^ 2
    simp
  obtain ⟨A, hA, h0, h1, h2, hval⟩ := controlNoise_amplitudes (par L) (.int 1) 1 (samples δ) y [[x]] [[x ^ 2]] rfl
    (by simp [samples]) rfl rfl (fun _ => square [[x + δ]]) (fun k hk => by simp [noisyPars, samples, par])
    (fun k hk => ⟨rfl, rfl, rfl⟩)
  have e := hval 0 0 0 (by simp [samples]) (by simp) (by simp [square]) (by simp) (by simp [square])
  simp only [square, List.map_cons, List.map_nil, List.getD_cons_zero] at e
  obtain ⟨c1, c2⟩ := controlNoise_bare (par L) 1 (samples δ) (fun _ A => A) none 1 false false [1] y [[x]] [[x ^ 2]]
  obtain ⟨g, g1, g2, -⟩ := c95_frozen_partial (par L) [1] (exact hE hF)
    ⟨(par L).bare.cfg, (par L).ctrl, .int 1, some (controlNoiseAmp (par L).amp (par L).ctrl.length), 1, samples δ⟩ rfl rfl
    (by simp) y [[x]] (fun _ _ => x ^ 2) A (by rw [← hrows]; exact hA) h0 h1 h2 (fun _ A => A) none (by simp)
    false false (Or.inl rfl) 1
  rw [← hrows] at g1 g2
  refine ⟨g, c2.trans g1, c1.trans (g2.trans ?_)⟩
  congr 1
  have hdim : (dim (none : Option (List (Fin 2))) : ℝ) = 2 := by
    show ((Fintype.card (Fin 2) : Nat) : ℝ) = 2
    simp
  have hstep : ((par L).bare.noisy [!![1, 0; 0, -1]] A.transpose 0).final [1] [[x ^ 2]] =
      Matrix.diagonal ![Complex.exp (-(Complex.I * ((x + δ) ^ 2 : ℝ))), Complex.exp (Complex.I * ((x + δ) ^ 2 : ℝ))] := by
    have h3 : ((par L).bare.noisy [!![1, 0; 0, -1]] A.transpose 0).step [1] [[x ^ 2]] 0 =
        L.expm (((1 : ℝ) : ℂ) • (-Complex.I) • hamiltonian (0 + noiseHam [!![1, 0; 0, -1]] A.transpose 0 0) [!![1, 0; 0, -1]] [x ^ 2]) := rfl
    have h4 : ((1 : ℝ) : ℂ) • (-Complex.I) • hamiltonian (0 + noiseHam [!![1, 0; 0, -1]] A.transpose 0 0) [!![1, 0; 0, -1]] [x ^ 2] =
        (Matrix.diagonal ![-(Complex.I * ((x + δ) ^ 2 : ℝ)), Complex.I * ((x + δ) ^ 2 : ℝ)] : Matrix (Fin 2) (Fin 2) ℂ) := by
      have h5 : noiseHam [!![1, 0; 0, -1]] A.transpose 0 0 = ((A.val 0 0 0 : ℝ) : ℂ) • (!![1, 0; 0, -1] : Matrix (Fin 2) (Fin 2) ℂ) := by
        simp [noiseHam, Arr3.transpose]
      rw [h5, e]
      ext i j
      fin_cases i <;> fin_cases j <;> simp [hamiltonian] <;> ring
    have h6 : ((par L).bare.noisy [!![1, 0; 0, -1]] A.transpose 0).final [1] [[x ^ 2]] =
        ((par L).bare.noisy [!![1, 0; 0, -1]] A.transpose 0).step [1] [[x ^ 2]] 0 * 1 := rfl
    rw [h6, h3, hE, h4, Matrix.exp_diagonal, Matrix.mul_one]
    congr 1
    funext i
    fin_cases i <;> simp [Pi.coe_exp, Complex.exp_eq_exp_ℂ]
  show noiseInfidelity _ _ _ _ _ _ 1 (fun k => ((par L).bare.noisy [!![1, 0; 0, -1]] A.transpose k).final [1] [[x ^ 2]]) = _
  simp only [noiseInfidelity, Finset.univ_unique, Finset.sum_singleton, entFid, hdim]
  rw [show ((default : Fin 1) : Nat) = 0 from rfl, hstep]
  have htr : (((1 : Matrix (CompIdx (none : Option (List (Fin 2)))) (CompIdx (none : Option (List (Fin 2)))) ℂ))ᴴ *
      truncTo (fun _ A => A) none false (Matrix.diagonal
        ![Complex.exp (-(Complex.I * ((x + δ) ^ 2 : ℝ))), Complex.exp (Complex.I * ((x + δ) ^ 2 : ℝ))])).trace =
      ((2 * Real.cos ((x + δ) ^ 2) : ℝ) : ℂ) := by
    show (((1 : Matrix (Fin 2) (Fin 2) ℂ))ᴴ * (Matrix.diagonal
        ![Complex.exp (-(Complex.I * ((x + δ) ^ 2 : ℝ))), Complex.exp (Complex.I * ((x + δ) ^ 2 : ℝ))])).trace = _
    rw [Matrix.conjTranspose_one, Matrix.one_mul, Matrix.trace_diagonal, Fin.sum_univ_two]
    simp only [Matrix.cons_val_zero, Matrix.cons_val_one]
    rw [Complex.ofReal_mul, Complex.ofReal_cos, Complex.cos]
    push_cast
    ring_nf
  have hcong : (if false = true then truncTo (fun _ A => A) none false ((par L).bare.final [1] [[x ^ 2]]) else 1) =
      (1 : Matrix (CompIdx (none : Option (List (Fin 2)))) (CompIdx (none : Option (List (Fin 2)))) ℂ) := by simp
  rw [hcong, htr, Complex.norm_real, Real.norm_eq_abs, sq_abs]
  push_cast
  ring

/-- The solver after the pulse `x` has been set. -/
noncomputable def solver (x : ℝ) : SolverObj 1 :=
  ⟨1, .identity ⟨none, 1, 0, none, 0, none⟩, .unary (fun x => x ^ 2) (fun x => 2 * x), 1, some [fun _ => x], some [fun _ => x ^ 2]⟩

theorem ofFn_one (f : Fin 1 → ℝ) : List.ofFn f = [f 0] := by simp

theorem set_ok (L : Lapack (Fin 2)) (δ x : ℝ) : Sim.setSolvers (sim L δ).solvers [fun _ => x] = .ok [solver x] := by
  simp [Sim.setSolvers, sim, SolverObj.setPars, TF.call, AmpFunc.call, bind, Except.bind, pure, Except.pure, solver]

end Ex95

open Ex95 in
/-- **C95** The Jacobian is not the derivative of the costs: amplitude `u = x²`, noise sample `√π / 2`. At `x = 0` the
simulator returns the Jacobian zero, the derivative of its cost is `√π`. -/
theorem c95_violated (L : Lapack (Fin 2)) (hE : L.ExpmOk) (hF : L.FrechetOk) :
    (∃ sim', (sim L (√Real.pi / 2)).wrappedJac (some [fun _ => 0]) = .ok (sim', [[fun _ => 0]])) ∧
      ∃ C : ℝ → ℝ, (∀ x, ∃ sim', (sim L (√Real.pi / 2)).wrappedCosts (some [fun _ => x]) = .ok (sim', [C x])) ∧
        HasDerivAt C (√Real.pi) 0 ∧ √Real.pi ≠ 0 := by
  set δ : ℝ := √Real.pi / 2 with hδ
  refine ⟨?_, fun x => 1 - Real.cos ((x + δ) ^ 2) ^ 2, fun x => ?_, ?_, by positivity⟩
  · obtain ⟨g, g1, -⟩ := reads hE hF δ 0 [[0]]
    have hj : Sim.jacOf (controlNoiseCost (par L) [1] 1 (samples δ) (fun _ A => A) none 1 false false 0 "noise") (solver 0)
        [fun _ => 0] = .ok [[fun _ => 0]] := by
      simp only [Sim.jacOf, solver, controlNoiseCost, TF.call, bind, Except.bind, List.map_cons, List.map_nil, ofFn_one]
      rw [g1]
      simp only [Jac.expand, AmpFunc.chain, rowsOf, ofFn_one, TF.grad, pure, Except.pure]
      simp
    have hl : Sim.jacLoop [solver 0] [fun _ => 0] (sim L δ).costFuncs = .ok [[[fun _ => 0]]] := by
      show Sim.jacLoop [solver 0] [fun _ => 0] [_] = _
      unfold Sim.jacLoop
      rw [show Sim.solverOf [solver 0] _ = .ok (solver 0) from rfl]
      simp only [bind, Except.bind, hj]
      rfl
    refine ⟨{ sim L δ with solvers := [solver 0] }, ?_⟩
    show (do
      let y ← (sim L δ).given (some [fun _ => 0])
      let ss ← Sim.setSolvers (sim L δ).solvers y
      let jacs ← Sim.jacLoop ss y (sim L δ).costFuncs
      let total ← Sim.concatenate1 jacs
      pure ({ sim L δ with solvers := ss }, total)) = _
    simp only [Sim.given, bind, Except.bind, set_ok, hl]
    rfl
  · obtain ⟨g, -, g1⟩ := reads hE hF δ x [[x]]
    have hj : (controlNoiseCost (par L) [1] 1 (samples δ) (fun _ A => A) none 1 false false 0 "noise").costs (solver x) =
        .ok [1 - Real.cos ((x + δ) ^ 2) ^ 2] := by
      simp only [solver, controlNoiseCost, TF.call, bind, Except.bind, List.map_cons, List.map_nil, ofFn_one]
      rw [g1]
      rfl
    have hl : Sim.costLoop [solver x] (sim L δ).costFuncs = .ok [[1 - Real.cos ((x + δ) ^ 2) ^ 2]] := by
      show Sim.costLoop [solver x] [_] = _
      unfold Sim.costLoop
      rw [show Sim.solverOf [solver x] _ = .ok (solver x) from rfl]
      simp only [bind, Except.bind, hj]
      rfl
    refine ⟨{ sim L δ with solvers := [solver x] }, ?_⟩
    unfold Sim.wrappedCosts
    simp only [Sim.given, bind, Except.bind, set_ok, hl]
    rfl
  · have hd : HasDerivAt (fun x : ℝ => 1 - Real.cos ((x + δ) ^ 2) ^ 2)
        (-(2 * Real.cos ((0 + δ) ^ 2) * (-Real.sin ((0 + δ) ^ 2) * (2 * (0 + δ))))) 0 := by
      have h1 : HasDerivAt (fun x : ℝ => (x + δ) ^ 2) (2 * (0 + δ)) 0 := by
        simpa using ((hasDerivAt_id (0 : ℝ)).add_const δ).fun_pow 2
      have h2 := (h1.cos.fun_pow 2).const_sub 1
      simpa using h2
    refine hd.congr_deriv ?_
    have h3 : (0 + δ) ^ 2 = Real.pi / 4 := by
      rw [hδ, zero_add, div_pow, Real.sq_sqrt Real.pi_pos.le]
      norm_num
    rw [h3, Real.cos_pi_div_four, Real.sin_pi_div_four, zero_add, hδ]
    have h4 : √2 * √2 = (2 : ℝ) := Real.mul_self_sqrt (by norm_num)
    linear_combination (√Real.pi / 2) * h4

/-- `c95_violated` applies. -/
example : ∃ (L : Lapack (Fin 2)) (sim' : Sim 1), (Ex95.sim L (√Real.pi / 2)).wrappedJac (some [fun _ => 0]) =
    .ok (sim', [[fun _ => 0]]) := by
  obtain ⟨L, -, -, hE, hF⟩ := lapack_exists (Fin 2)
  obtain ⟨⟨s, h⟩, -⟩ := c95_violated L hE hF
  exact ⟨L, s, h⟩

/-- `c95_frozen_partial` applies: a noise amplitude function that multiplies the samples by the transferred parameters. -/
example (U : Fin 4 → Fin 2 → ℝ) (x : Solver.Pulse) : ∃ (L : Lapack (Fin 2)) (g : Fin 4 → Fin 2 → ℝ),
    mcGrad (fun _ A => A) none 1 false false ⟨(Ex93.par L).bare.cfg, [!![1, 0; 0, 0]], .int 1,
      some fun A _ x _ => .ok ⟨A.d0, A.d1, A.d2, fun t k j => A.val t k j * (x.getD t []).getD 0 0⟩, 3,
      ⟨1, 3, 4, fun _ k t => 10 * k + t⟩⟩ [1, 1, 1, 1] [] x (rowsOf U) = .ok (rowsOf g) := by
  obtain ⟨L, -, -, hE, hF⟩ := lapack_exists (Fin 2)
  obtain ⟨g, h1, -⟩ := c95_frozen_partial (Ex93.par L) [1, 1, 1, 1] (Ex93.par_exact hE hF) ⟨(Ex93.par L).bare.cfg,
      [!![1, 0; 0, 0]], .int 1, some fun A _ x _ => .ok ⟨A.d0, A.d1, A.d2, fun t k j => A.val t k j * (x.getD t []).getD 0 0⟩, 3,
      ⟨1, 3, 4, fun _ k t => 10 * k + t⟩⟩ rfl rfl (by simp) [] x (fun t k => U t k) _ rfl rfl rfl rfl (fun _ A => A) none
    (by simp) false false (Or.inl rfl) 1
  exact ⟨L, g, h1⟩

/-- `c95_additive_partial` applies to the identity as amplitude function. -/
example (U : Fin 4 → Fin 2 → ℝ) : ∃ (L : Lapack (Fin 2)) (g : Fin 4 → Fin 2 → ℝ),
    mcGrad (fun _ A => A) none 1 false true (mcControlNoise (Ex93.par L) (.int 1) 3 ⟨2, 3, 4, fun j k t => 100 * j + 10 * k + t⟩)
      [1, 1, 1, 1] [] (rowsOf U) (rowsOf U) = .ok (rowsOf g) := by
  obtain ⟨L, -, -, hE, hF⟩ := lapack_exists (Fin 2)
  obtain ⟨s1, s2⟩ := rowsOf_shape U
  have hid : ∀ (N : Nat) (V : Fin (N + 1) → Fin 2 → ℝ), ∃ r, idAmp (rowsOf V) = .ok r ∧ r.ndim = 2 ∧ r.cols = 2 ∧ r.rows = rowsOf V := by
    intro N V
    obtain ⟨r, e1, e2, e3, e4⟩ := idAmp_ok (rowsOf V) 2 (by
      intro h0
      have := (rowsOf_shape V).1
      rw [h0] at this
      simp at this) (rowsOf_shape V).2
    exact ⟨r, e1, e2, e3, e4⟩
  obtain ⟨r, r1, -, -, r4⟩ := hid 3 U
  obtain ⟨g, _, h1, -⟩ := c95_additive_partial (Ex93.par L) [1, 1, 1, 1] (Ex93.par_exact hE hF) 3 (by simp)
    ⟨2, 3, 4, fun j k t => 100 * j + 10 * k + t⟩ ⟨2, 3, 4, fun j k t => 100 * j + 10 * k + t⟩ rfl rfl (by
      intro x V r hr hV k hk
      have hx : x = rowsOf V := by
        have hr' : idAmp x = .ok r := hr
        unfold idAmp at hr'
        split at hr'
        · simp only [Except.ok.injEq] at hr'
          rw [← hV, ← hr']
        · simp at hr'
      have hn : noisyPars x ⟨2, 3, 4, fun j k t => 100 * j + 10 * k + t⟩ k =
          rowsOf fun (t : Fin 4) (j : Fin 2) => V t j + (100 * (j : ℝ) + 10 * k + t) := by
        rw [hx]
        simp only [noisyPars, rowsOf]
        refine List.ext_getElem (by simp) fun i h1 h2 => ?_
        rw [List.getElem_mapIdx, List.getElem_ofFn, List.getElem_ofFn]
        refine List.ext_getElem (by rw [List.length_mapIdx, List.length_ofFn, List.length_ofFn]; rfl) fun j h3 h4 => ?_
        rw [List.getElem_mapIdx, List.getElem_ofFn, List.getElem_ofFn]
        rfl
      obtain ⟨a, a1, a2, a3, a4⟩ := hid 3 fun (t : Fin 4) (j : Fin 2) => V t j + (100 * (j : ℝ) + 10 * k + t)
      exact ⟨a, by rw [hn]; exact a1, a2, a3, a4⟩)
    (fun _ A => A) none (by simp) false true (Or.inl rfl) 1 [] (rowsOf U) (fun t k => U t k) r s1 s2 r1 r4
  exact ⟨L, g, h1⟩

end
end Verif.Sim
