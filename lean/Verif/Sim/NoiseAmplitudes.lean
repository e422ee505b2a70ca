import Verif.Sim.NoiseDescriptions

/-!
# C171: noise amplitude functions

`SchroedingerSMonteCarlo` (solver_algorithms.py:1015-1410) with a `noise_amplitude_function` (solver_algorithms.py:1274-1284), which computes
the noise from the samples, the optimisation parameters, the transferred parameters and the control amplitudes.
-/

namespace Verif.Sim
open Verif Verif.Operator Verif.Solver Verif.Cost Matrix

variable {n m : Type} [Fintype n] [DecidableEq n]

/-! ## Specification -/

/-- The array which the function of the user receives: time step first, then trace, then noise operator. -/
def timeFirst (S : Arr3) : Arr3 := ⟨S.d2, S.d1, S.d0, fun t k j => S.val j k t⟩

/-- The solver without noise amplitude function whose noise samples are the array `A` (time step first). -/
def withNoise (M : MC n m) (A : Arr3) : MC n m :=
  { M with noiseAmp := none, samples := ⟨A.d2, A.d1, A.d0, fun j k t => A.val t k j⟩ }

/-! ## Lemmas -/

theorem noiseRun_amp (M : MC n m) (f : Arr3 → Solver.Pulse → Solver.Pulse → Solver.Pulse → Except PyErr Arr3) (hf : M.noiseAmp = some f)
    (y x u : Solver.Pulse) (A : Arr3) (hA : f (timeFirst M.samples) y x u = .ok A) (wd : Bool) (times : List ℝ) :
    noiseRun (withNoise M A) wd times y x u = noiseRun M wd times y x u := by
  have e : noiseAmplitudes M y x u = .ok A := by
    unfold noiseAmplitudes
    rw [hf]
    exact hA
  unfold noiseRun dynGenNoise
  rw [e]
  rfl

/-! ## The property -/

/-- **C171** If the noise amplitude function returns the array `A` for the samples, the optimisation parameters, the transferred parameters and the
control amplitudes, then trace `k` has at step `t` the propagator of the noiseless generator plus `-i Σ_j A[t][k][j] * h_noise[j]`. -/
theorem c171_traces (M : MC n m) (hp : M.ProcsOk) (hm : M.base.method ≠ .other)
    (f : Arr3 → Solver.Pulse → Solver.Pulse → Solver.Pulse → Except PyErr Arr3) (hf : M.noiseAmp = some f) (times : List ℝ)
    (y x u : Solver.Pulse) (hd : ∀ t, t < times.length → ∃ Ds, (M.base.dirs times u)[t]? = some Ds ∧ Ds ≠ [] ∧ M.base.nCtrl ≤ Ds.length)
    (hg : (M.base.gens u).length = times.length) (A : Arr3) (hA : f (timeFirst M.samples) y x u = .ok A) (h0 : A.d0 = times.length)
    (h1 : A.d1 = M.nTraces) (h2 : A.d2 = M.hNoise.length) :
    ∃ ps : List (List (Matrix n n ℂ)), propsNoise M times y x u = .ok (ps.map fun l => l.map some) ∧ ps.length = M.nTraces ∧
      ∀ k (hk : k < ps.length), ps[k].length = times.length ∧
        ∀ (t : Nat) (G : Matrix n n ℂ) (σ : ℝ), (M.base.gens u)[t]? = some G → times[t]? = some σ →
          ps[k][t]? = some (propOf M.base (G + (-Complex.I) • ∑ j : Fin M.hNoise.length, ((A.val t k j : ℝ) : ℂ) • M.hNoise[j]) σ) := by
  have e : propsNoise M times y x u = propsNoise (withNoise M A) times y x u := by
    unfold propsNoise
    rw [noiseRun_amp M f hf y x u A hA]
    rfl
  rw [e]
  exact c34_noise_traces (withNoise M A) hp hm rfl times y x u hd hg h2 h1 h0

/-- **C171** All noise costs, gradients and propagators are those of the solver without noise amplitude function whose samples are what the function
returns. -/
theorem c171_same_traces (M : MC n m) (f : Arr3 → Solver.Pulse → Solver.Pulse → Solver.Pulse → Except PyErr Arr3) (hf : M.noiseAmp = some f)
    (times : List ℝ) (y x u : Solver.Pulse) (A : Arr3) (hA : f (timeFirst M.samples) y x u = .ok A) :
    SameTraces M (withNoise M A) times y x u := by
  have e : propsNoise (withNoise M A) times y x u = propsNoise M times y x u := by
    unfold propsNoise
    rw [noiseRun_amp M f hf y x u A hA]
    rfl
  refine ⟨e, ?_, ?_, ?_⟩
  · unfold fwdNoise
    rw [e]
    rfl
  · unfold revNoise
    rw [e]
    rfl
  · unfold derivsNoise
    rw [noiseRun_amp M f hf y x u A hA, noiseRun_amp M f hf y x u A hA]
    rfl

/-- **C171** The same for the costs. -/
theorem c171_costs (M : MC n n) (f : Arr3 → Solver.Pulse → Solver.Pulse → Solver.Pulse → Except PyErr Arr3) (hf : M.noiseAmp = some f)
    (times : List ℝ) (y x u : Solver.Pulse) (A : Arr3) (hA : f (timeFirst M.samples) y x u = .ok A) (cl : Closest) (cs : Option (List n))
    (T : Matrix (CompIdx cs) (CompIdx cs) ℂ) (mcu nse : Bool) (l : List n) :
    mcCosts cl cs T mcu nse M times y x u = mcCosts cl cs T mcu nse (withNoise M A) times y x u ∧
    mcGrad cl cs T mcu nse M times y x u = mcGrad cl cs T mcu nse (withNoise M A) times y x u ∧
    mcLeakCosts l M times y x u = mcLeakCosts l (withNoise M A) times y x u ∧
    mcLiouvilleLeakCosts l M times y x u = mcLiouvilleLeakCosts l (withNoise M A) times y x u := by
  obtain ⟨h1, h2, h3, h4⟩ := c161_costs M (withNoise M A) rfl times y x u (c171_same_traces M f hf times y x u A hA) cl cs T mcu nse l
  exact ⟨h1.symm, h2.symm, h3.symm, h4.symm⟩

/-- **C171** The same for the transfer of a state. -/
theorem c171_state_costs (M : MC n (Fin 1)) (f : Arr3 → Solver.Pulse → Solver.Pulse → Solver.Pulse → Except PyErr Arr3) (hf : M.noiseAmp = some f)
    (times : List ℝ) (y x u : Solver.Pulse) (A : Arr3) (hA : f (timeFirst M.samples) y x u = .ok A) (cs : Option (List n))
    (T : Matrix (Fin 1) (CompIdx cs) ℂ) (rescale nse : Bool) :
    mcStateCosts cs T rescale nse M times y x u = mcStateCosts cs T rescale nse (withNoise M A) times y x u :=
  (c161_state_costs M (withNoise M A) rfl times y x u (c171_same_traces M f hf times y x u A hA) cs T rescale nse).symm

/-- **C171** An exception of the noise amplitude function reaches the user. -/
theorem c171_error (M : MC n n) (f : Arr3 → Solver.Pulse → Solver.Pulse → Solver.Pulse → Except PyErr Arr3) (hf : M.noiseAmp = some f)
    (times : List ℝ) (y x u : Solver.Pulse) (e : PyErr) (hA : f (timeFirst M.samples) y x u = .error e) :
    propsNoise M times y x u = .error e ∧ fwdNoise M times y x u = .error e ∧ revNoise M times y x u = .error e ∧
    (M.base.approx ≠ .other → derivsNoise M times y x u = .error e) ∧
    ∀ clean, specFwd M.base times u = .ok clean → ∀ (cl : Closest) (cs : Option (List n)) (T : Matrix (CompIdx cs) (CompIdx cs) ℂ)
      (mcu nse : Bool), mcCosts cl cs T mcu nse M times y x u = .error e := by
  have h0 : noiseAmplitudes M y x u = .error e := by
    unfold noiseAmplitudes
    rw [hf]
    exact hA
  have h1 : ∀ wd, noiseRun M wd times y x u = .error e := by
    intro wd
    unfold noiseRun dynGenNoise
    rw [h0]
    rfl
  have h2 : propsNoise M times y x u = .error e := by
    unfold propsNoise
    rw [h1]
    rfl
  have h3 : fwdNoise M times y x u = .error e := by
    unfold fwdNoise
    rw [h2]
    rfl
  refine ⟨h2, h3, ?_, fun ha => ?_, fun clean hc cl cs T mcu nse => ?_⟩
  · unfold revNoise
    rw [h2]
    rfl
  · unfold derivsNoise
    rw [h1, h1]
    cases hb : M.base.approx with
    | none => rfl
    | grape => rfl
    | other => exact absurd hb ha
  · unfold mcCosts
    rw [hc, h3]
    rfl

/-! ## Cases -/

namespace Ex171

/-- Noise proportional to the first optimisation parameter of the time step. -/
noncomputable def amp : Arr3 → Solver.Pulse → Solver.Pulse → Solver.Pulse → Except PyErr Arr3 := fun A y _ _ =>
  if y = [] then .error .indexError else .ok ⟨A.d0, A.d1, A.d2, fun t k j => A.val t k j * (y.getD t []).getD 0 0⟩

noncomputable def mc (L : Lapack (Fin 2)) : MC (Fin 2) (Fin 2) := { Ex161.mc L with noiseAmp := some amp }

noncomputable def mcState (L : Lapack (Fin 2)) : MC (Fin 2) (Fin 1) := { Ex161.mcState L with noiseAmp := some amp }

/-- `c171_costs`, `c171_state_costs` and `c171_error` apply: the parameters are the amplitudes halved. -/
example (L : Lapack (Fin 2)) (cl : Closest) (T : Matrix (Fin 2) (Fin 2) ℂ) (B : Matrix (Fin 1) (Fin 2) ℂ) :
    mcCosts (n := Fin 2) cl none T false true (mc L) [1, 2, 3] [[1, 2], [3, 4], [5, 6]] [[1, 2], [3, 4], [5, 6]] [[2, 4], [6, 8], [10, 12]] =
      mcCosts (n := Fin 2) cl none T false true (withNoise (mc L) ⟨3, 4, 2, fun t k j => (mc L).samples.val j k t *
        ([[1, 2], [3, 4], [5, 6]].getD t []).getD 0 0⟩) [1, 2, 3] [[1, 2], [3, 4], [5, 6]] [[1, 2], [3, 4], [5, 6]] [[2, 4], [6, 8], [10, 12]] ∧
    mcStateCosts (n := Fin 2) none B true false (mcState L) [1, 2, 3] [[1, 2], [3, 4], [5, 6]] [[1, 2], [3, 4], [5, 6]]
        [[2, 4], [6, 8], [10, 12]] =
      mcStateCosts (n := Fin 2) none B true false (withNoise (mcState L) ⟨3, 4, 1, fun t k j => (mcState L).samples.val j k t *
        ([[1, 2], [3, 4], [5, 6]].getD t []).getD 0 0⟩) [1, 2, 3] [[1, 2], [3, 4], [5, 6]] [[1, 2], [3, 4], [5, 6]] [[2, 4], [6, 8], [10, 12]] ∧
    propsNoise (mc L) [1, 2, 3] [] [] [] = .error .indexError :=
  ⟨(c171_costs (mc L) amp rfl [1, 2, 3] _ _ _ _ (by unfold amp; rw [if_neg (by simp)]; rfl) cl none T false true []).1,
    c171_state_costs (mcState L) amp rfl [1, 2, 3] _ _ _ _ (by unfold amp; rw [if_neg (by simp)]; rfl) none B true false,
    (c171_error (mc L) amp rfl [1, 2, 3] [] [] [] _ (by unfold amp; rw [if_pos rfl])).1⟩

/-- `c171_traces` applies: the first propagator of the third trace. -/
example (L : Lapack (Fin 2)) : ∃ ps : List (List (Matrix (Fin 2) (Fin 2) ℂ)),
    propsNoise (mc L) [1, 2, 3] [[1, 2], [3, 4], [5, 6]] [[1, 2], [3, 4], [5, 6]] [[2, 4], [6, 8], [10, 12]] = .ok (ps.map fun l => l.map some) ∧
      ps.length = 4 := by
  obtain ⟨ps, h1, h2, -⟩ := c171_traces (mc L) (Or.inl rfl) (by show Method.frechet ≠ .other; simp) amp rfl [1, 2, 3] [[1, 2], [3, 4], [5, 6]]
    [[1, 2], [3, 4], [5, 6]] [[2, 4], [6, 8], [10, 12]] (fun t ht => (qubitPar L .none true).dirs_ok (by simp [qubitPar]) _ _ t ht)
    (by show (schroedGens _ _ _).length = 3; rw [schroedGens_length]; rfl) _ (by unfold amp; rw [if_neg (by simp)]) rfl rfl rfl
  exact ⟨ps, h1, h2⟩

end Ex171

end Verif.Sim
