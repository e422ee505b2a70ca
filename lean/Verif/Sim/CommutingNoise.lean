import Verif.Sim.NoiseModels
import Verif.Sim.Conserved

/-!
# C166: noise that no pulse can reduce

`OperationNoiseInfidelity` (cost_functions.py:1320-1422) with neglected systematic errors and a Monte Carlo solver
(`SchroedingerSMonteCarlo`, solver_algorithms.py:1055-1330) whose noise operators commute with the Hamiltonians.
-/

namespace Verif.Sim
open Verif Verif.Transfer Verif.Operator Verif.Solver Verif.Cost Matrix

section
variable {n : Type} [Fintype n] [DecidableEq n]

/-! ## Specification -/

/-- The evolution under the noise of trace `k` alone. -/
noncomputable def noiseAlone (M : MC n n) (times : List ℝ) (k : Nat) : Matrix n n ℂ :=
  evolve (List.ofFn fun i : Fin times.length => (times[i], ∑ j : Fin M.hNoise.length, ((M.samples.val j k i : ℝ) : ℂ) • M.hNoise[j]))

/-- The noise operators commute with the drift and the control Hamiltonians. -/
structure Commutes (p : SPar n n) (hN : List (Matrix n n ℂ)) : Prop where
  drift : ∀ N ∈ hN, ∀ H ∈ p.drift, N * H = H * N
  ctrl : ∀ N ∈ hN, ∀ H ∈ p.ctrl, N * H = H * N

/-- What is assumed of the solver. -/
structure NoisySolver (p : SPar n n) (τ : List ℝ) (M : MC n n) : Prop where
  pulse : NoisyPulse p τ M.hNoise
  given : Given M p τ
  procs : M.ProcsOk
  init : p.init ∈ Matrix.unitaryGroup n ℂ

/-! ## Lemmas -/

/-- Parts of the Hamiltonians which commute with all other parts evolve on their own. -/
theorem evolve_split (N : List (ℝ × Matrix n n ℂ × Matrix n n ℂ)) (h : ∀ x ∈ N, ∀ y ∈ N, Commute x.2.2 y.2.1) :
    evolve (N.map fun x => (x.1, x.2.1 + x.2.2)) = evolve (N.map fun x => (x.1, x.2.2)) * evolve (N.map fun x => (x.1, x.2.1)) := by
  induction N using List.reverseRecOn with
  | nil => simp [evolve]
  | append_singleton L x ih =>
    have ih := ih fun a ha b hb => h a (by simp [ha]) b (by simp [hb])
    rw [List.map_append, List.map_append, List.map_append, List.map_singleton, List.map_singleton, List.map_singleton, evolve_append,
      evolve_append, evolve_append, ih]
    have hx : Commute x.2.2 x.2.1 := h x (by simp) x (by simp)
    have hs : NormedSpace.exp (((x.1 : ℝ) : ℂ) • ((-Complex.I) • (x.2.1 + x.2.2))) =
        NormedSpace.exp (((x.1 : ℝ) : ℂ) • ((-Complex.I) • x.2.2)) * NormedSpace.exp (((x.1 : ℝ) : ℂ) • ((-Complex.I) • x.2.1)) := by
      rw [← Matrix.exp_add_of_commute _ _ ((((hx.smul_left _).smul_left _).smul_right _).smul_right _), smul_add, smul_add, add_comm]
    have hc : Commute (NormedSpace.exp (((x.1 : ℝ) : ℂ) • ((-Complex.I) • x.2.1))) (evolve (L.map fun x => (x.1, x.2.2))) := by
      refine commute_evolve fun y hy => ?_
      obtain ⟨z, hz, rfl⟩ := List.mem_map.mp hy
      exact (commute_step (h z (by simp [hz]) x (by simp)) x.1).symm
    rw [hs]
    simp only [Matrix.mul_assoc]
    congr 1
    rw [← Matrix.mul_assoc, hc.eq, Matrix.mul_assoc]

/-- The noise acts after the pulse. -/
theorem noisyFinal_split {p : SPar n n} {τ : List ℝ} {M : MC n n} (h : NoisySolver p τ M) (hc : Commutes p M.hNoise) (u : Solver.Pulse) (k : Nat) :
    noisyFinal p M.hNoise τ u (traceOf _ _ M.samples k) = noiseAlone M (p.xTimes τ) k * noisyFinal p M.hNoise τ u 0 := by
  have e1 : noisyFinal p M.hNoise τ u (traceOf _ _ M.samples k) = _ :=
    noisyFinal_evolve p M.hNoise τ u (fun j t => M.samples.val j k t) _ fun _ _ => rfl
  have e2 : noisyFinal p M.hNoise τ u 0 = _ := noisyFinal_evolve p M.hNoise τ u (fun _ _ => 0) _ fun _ _ => rfl
  rw [e1, e2, ← Matrix.mul_assoc]
  congr 1
  have := evolve_split (List.ofFn fun i : Fin (p.xTimes τ).length => ((p.xTimes τ)[i],
    hamiltonian (p.drift.getD i 0) p.ctrl (u.getD i []), ∑ j : Fin M.hNoise.length, ((M.samples.val j k i : ℝ) : ℂ) • M.hNoise[j])) ?_
  · simp only [List.map_ofFn, Function.comp_def] at this
    refine this.trans ?_
    unfold noiseAlone noisyEvolve totalHam
    simp
  · intro x hx y hy
    obtain ⟨i, rfl⟩ := (List.mem_ofFn' _ _).mp hx
    obtain ⟨i', rfl⟩ := (List.mem_ofFn' _ _).mp hy
    refine Commute.sum_left _ _ _ fun j _ => Commute.smul_left ?_ _
    have hm : M.hNoise[j] ∈ M.hNoise := List.getElem_mem _
    refine commute_hamiltonian ?_ (hc.ctrl _ hm) _
    have : (i' : Nat) < p.drift.length := by rw [h.pulse.valid.2.1]; exact i'.2
    rw [List.getD_eq_getElem _ _ this]
    exact hc.drift _ hm _ (List.getElem_mem _)

/-- The infidelity of a trace. -/
theorem trace_alone {p : SPar n n} {τ : List ℝ} {M : MC n n} (h : NoisySolver p τ M) (hc : Commutes p M.hNoise) (cl : Closest) (mcu : Bool)
    (T : Matrix n n ℂ) (u : Solver.Pulse) (k : Nat) :
    traceInfidelity (n := n) cl none T mcu true p M.hNoise τ u (traceOf _ _ M.samples k) =
      1 - ‖(noiseAlone M (p.xTimes τ) k).trace‖ ^ 2 / Fintype.card n ^ 2 := by
  have hU := noisyFinal_unitary p M.hNoise τ h.pulse.valid h.pulse.drift h.pulse.ctrl h.pulse.noise h.init u 0
  have ht : ∀ T U : Matrix n n ℂ, entFid (n := n) cl none T U mcu = ‖(Tᴴ * U).trace‖ ^ 2 / Fintype.card n / Fintype.card n := by
    intro T U
    cases mcu <;> rfl
  have e : traceInfidelity (n := n) cl none T mcu true p M.hNoise τ u (traceOf _ _ M.samples k) =
      1 - ‖((noisyFinal p M.hNoise τ u 0)ᴴ * noisyFinal p M.hNoise τ u (traceOf _ _ M.samples k)).trace‖ ^ 2 / Fintype.card n / Fintype.card n :=
    congrArg (fun s : ℝ => 1 - s) (ht (noisyFinal p M.hNoise τ u 0) (noisyFinal p M.hNoise τ u (traceOf _ _ M.samples k)))
  rw [e, noisyFinal_split h hc, Matrix.trace_mul_comm, Matrix.mul_assoc, ← Matrix.star_eq_conjTranspose, Matrix.mem_unitaryGroup_iff.mp hU, Matrix.mul_one, div_div, sq
    (Fintype.card n : ℝ)]

/-- An evolution of Hamiltonians which commute. -/
theorem evolve_area (N : List (ℝ × Matrix n n ℂ)) (h : ∀ x ∈ N, ∀ y ∈ N, Commute x.2 y.2) :
    evolve N = NormedSpace.exp ((-Complex.I) • (N.map fun x => (x.1 : ℂ) • x.2).sum) := by
  induction N using List.reverseRecOn with
  | nil => simp [evolve]
  | append_singleton L x ih =>
    rw [evolve_append, ih fun a ha b hb => h a (by simp [ha]) b (by simp [hb])]
    have hc : Commute x.2 (L.map fun x => (x.1 : ℂ) • x.2).sum := by
      refine Commute.list_sum_right _ _ fun y hy => ?_
      obtain ⟨z, hz, rfl⟩ := List.mem_map.mp hy
      exact (h x (by simp) z (by simp [hz])).smul_right _
    rw [← Matrix.exp_add_of_commute _ _ (((hc.smul_left _).smul_left _).smul_right _), List.map_append, List.sum_append, List.map_singleton,
      List.sum_singleton, smul_add, smul_comm, add_comm]

/-! ## Properties -/

/-- **C166** The noise infidelity does not depend on the pulse: it is that of the noise alone. -/
theorem c166_value (p : SPar n n) (τ : List ℝ) (M : MC n n) (h : NoisySolver p τ M) (hc : Commutes p M.hNoise) (cl : Closest) (mcu : Bool)
    (T : Matrix n n ℂ) (y u : Solver.Pulse) (hu : ampsOf p.cfg τ y = some u) (z x : Solver.Pulse) :
    mcCosts (n := n) cl none T mcu true M (p.xTimes τ) z x u =
      .ok ((∑ k : Fin M.nTraces, (1 - ‖(noiseAlone M (p.xTimes τ) k).trace‖ ^ 2 / Fintype.card n ^ 2)) / M.nTraces) := by
  have q := h.pulse
  have g := h.given
  rw [mcCosts_value (n := n) p τ q.valid q.stable q.method q.expm q.times M g.base h.procs g.amp g.ops g.traces g.times cl none T mcu true y u z x hu]
  refine congrArg (fun s : ℝ => Except.ok (s / M.nTraces)) (Finset.sum_congr rfl fun k _ => ?_)
  exact trace_alone h hc cl mcu T u k

/-- **C166** If the noise operators also commute with each other, only the accumulated noise matters. -/
theorem c166_area (M : MC n n) (times : List ℝ) (hc : ∀ N ∈ M.hNoise, ∀ N' ∈ M.hNoise, N * N' = N' * N) (k : Nat) :
    noiseAlone M times k = NormedSpace.exp ((-Complex.I) •
      ∑ j : Fin M.hNoise.length, ((∑ i : Fin times.length, times[i] * M.samples.val j k i : ℝ) : ℂ) • M.hNoise[j]) := by
  unfold noiseAlone
  rw [evolve_area]
  · congr 2
    rw [List.map_ofFn, List.sum_ofFn]
    simp only [Function.comp_def, Finset.smul_sum, smul_smul, Complex.ofReal_sum, Complex.ofReal_mul, Finset.sum_smul]
    rw [Finset.sum_comm]
  · intro x hx y hy
    obtain ⟨i, rfl⟩ := (List.mem_ofFn' _ _).mp hx
    obtain ⟨i', rfl⟩ := (List.mem_ofFn' _ _).mp hy
    exact Commute.sum_left _ _ _ fun j _ => Commute.sum_right _ _ _ fun j' _ =>
      (Commute.smul_right (show Commute M.hNoise[j] M.hNoise[j'] from hc _ (List.getElem_mem _) _ (List.getElem_mem _)) _).smul_left _

/-- **C166** The gradient vanishes. -/
theorem c166_gradient (p : SPar n n) (τ : List ℝ) (M : MC n n) (h : NoisySolver p τ M) (hc : Commutes p M.hNoise) (happ : p.approx = .none)
    (hF : p.L.FrechetOk) (hreach : ∀ U : Fin (p.xTimes τ).length → Fin p.ctrl.length → ℝ, ∃ y, ampsOf p.cfg τ y = some (rowsOf U))
    (hp : M.procs = .int 1) (hK : 0 < M.nTraces) (cl : Closest) (mcu : Bool) (T : Matrix n n ℂ) (z x : Solver.Pulse)
    (U : Fin (p.xTimes τ).length → Fin p.ctrl.length → ℝ) :
    mcGrad (n := n) cl none T mcu true M (p.xTimes τ) z x (rowsOf U) = .ok (rowsOf fun (_ : Fin (p.xTimes τ).length) (_ : Fin p.ctrl.length) => 0) := by
  have q := h.pulse
  have g := h.given
  obtain ⟨b, b1, b2, L, b3, b4⟩ := c93_noise_total (n := n) p τ q.valid q.stable q.method happ q.expm hF q.times hreach M
    ⟨g.base, hp, g.amp, g.ops, g.traces, g.times, hK⟩ cl none (by simp) mcu true (Or.inr rfl) T z x U
  rw [b1]
  have hconst : (fun V : Fin (p.xTimes τ).length → Fin p.ctrl.length → ℝ => noiseInfidelity (n := n) cl none T mcu true (p.final τ (rowsOf V)) M.nTraces
      fun k => (p.noisy M.hNoise M.samples k).final τ (rowsOf V)) = fun _ =>
      (∑ k : Fin M.nTraces, (1 - ‖(noiseAlone M (p.xTimes τ) k).trace‖ ^ 2 / Fintype.card n ^ 2)) / (M.nTraces : ℝ) := by
    funext V
    obtain ⟨y, hy⟩ := hreach V
    have := c166_value p τ M h hc cl mcu T y (rowsOf V) hy z x
    rw [b2] at this
    exact Except.ok.inj this
  rw [hconst] at b3
  have h0 : HasFDerivAt (fun _ : Fin (p.xTimes τ).length → Fin p.ctrl.length → ℝ =>
      (∑ k : Fin M.nTraces, (1 - ‖(noiseAlone M (p.xTimes τ) k).trace‖ ^ 2 / Fintype.card n ^ 2)) / (M.nTraces : ℝ))
      (0 : (Fin (p.xTimes τ).length → Fin p.ctrl.length → ℝ) →L[ℝ] ℝ) U := hasFDerivAt_const _ _
  rw [grad_unique b3 h0 b4 (g' := fun _ _ => 0) fun V => by simp]

end

/-! ## Cases -/

namespace Ex166
open Ex115

/-- A qubit whose frequency is controlled and noisy. -/
noncomputable def tuned (L : Lapack (Fin 2)) : SPar (Fin 2) (Fin 2) :=
  ⟨L, .frechet, true, true, .none, !![0, 1; 1, 0], [Z, 1], [Z], idTf, id, idAmp⟩
noncomputable def noise (L : Lapack (Fin 2)) : MC (Fin 2) (Fin 2) :=
  ⟨(tuned L).cfg, [Z, 1], .int 1, none, 3, ⟨2, 3, 2, fun j k t => j + k + t⟩⟩

theorem noisySolver {L : Lapack (Fin 2)} (hE : L.ExpmOk) : NoisySolver (tuned L) [1, 2] (noise L) where
  pulse := by
    have hz := Ex165.z_herm
    have h1 : (1 : Matrix (Fin 2) (Fin 2) ℂ).IsHermitian := Matrix.isHermitian_one
    refine ⟨⟨by simp [tuned], rfl, by simp [tuned]⟩, Or.inl ⟨rfl, rfl⟩, rfl, hE, by simp [tuned], ?_, ?_, ?_⟩ <;> intro H hH <;>
      simp only [tuned, noise, List.mem_cons, List.not_mem_nil, or_false] at hH
    · rcases hH with rfl | rfl
      · exact hz
      · exact h1
    · subst hH
      exact hz
    · rcases hH with rfl | rfl
      · exact hz
      · exact h1
  given := ⟨rfl, rfl, rfl, rfl, rfl⟩
  procs := Or.inl rfl
  init := by
    rw [Matrix.mem_unitaryGroup_iff]
    ext i j
    fin_cases i <;> fin_cases j <;> simp [tuned, Matrix.mul_apply, Fin.sum_univ_two, Matrix.star_apply]

theorem commutes (L : Lapack (Fin 2)) : Commutes (tuned L) (noise L).hNoise := by
  constructor <;> intro N hN H hH <;> simp only [tuned, noise, List.mem_cons, List.not_mem_nil, or_false] at hN hH
  · rcases hN with rfl | rfl <;> rcases hH with rfl | rfl <;> simp
  · rcases hN with rfl | rfl <;> subst hH <;> simp

theorem amps (L : Lapack (Fin 2)) (y : Solver.Pulse) (hl : y.length = 2) (hr : ∀ row ∈ y, row.length = 1) :
    ampsOf (tuned L).cfg [1, 2] y = some y :=
  ampsOf_simple L .frechet true .none !![0, 1; 1, 0] [Z, 1] [Z] _ y (by rintro rfl; simp at hl) hl hr

/-- `c166_value`, `c166_area` and `c166_gradient` apply. -/
example (cl : Closest) (U : Fin 2 → Fin 1 → ℝ) : ∃ (L : Lapack (Fin 2)) (c : ℝ),
    mcCosts (n := Fin 2) cl none 0 false true (noise L) [1, 2] [] [] [[3], [4]] = .ok c ∧
    mcCosts (n := Fin 2) cl none 0 false true (noise L) [1, 2] [] [] (rowsOf U) = .ok c ∧
    mcGrad (n := Fin 2) cl none 0 false true (noise L) [1, 2] [] [] (rowsOf U) = .ok (rowsOf fun (_ : Fin 2) (_ : Fin 1) => 0) ∧
    noiseAlone (noise L) [1, 2] 1 = NormedSpace.exp ((-Complex.I) • ∑ j : Fin 2,
      ((∑ i : Fin 2, ([1, 2] : List ℝ)[i] * (noise L).samples.val j 1 i : ℝ) : ℂ) •
        (([Z, (1 : Matrix (Fin 2) (Fin 2) ℂ)] : List (Matrix (Fin 2) (Fin 2) ℂ))[j] : Matrix (Fin 2) (Fin 2) ℂ)) := by
  obtain ⟨L, -, -, hE, hF⟩ := lapack_exists (Fin 2)
  refine ⟨L, _, c166_value (tuned L) [1, 2] (noise L) (noisySolver hE) (commutes L) cl false 0 _ _ (amps L [[3], [4]] rfl (by simp)) [] [],
    c166_value (tuned L) [1, 2] (noise L) (noisySolver hE) (commutes L) cl false 0 _ _ (amps L _ (rowsOf_shape U).1 (rowsOf_shape U).2) [] [], ?_, ?_⟩
  · exact c166_gradient (tuned L) [1, 2] (noise L) (noisySolver hE) (commutes L) rfl hF
      (fun V => ⟨rowsOf V, amps L _ (rowsOf_shape V).1 (rowsOf_shape V).2⟩) rfl (by show 0 < 3; norm_num) cl false 0 [] [] U
  · refine c166_area (noise L) [1, 2] ?_ 1
    intro N hN N' hN'
    simp only [noise, List.mem_cons, List.not_mem_nil, or_false] at hN hN'
    rcases hN with rfl | rfl <;> rcases hN' with rfl | rfl <;> simp

end Ex166

end Verif.Sim
