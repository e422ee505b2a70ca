import Verif.Sim.NoiseDescriptions
import Verif.Sim.NoisyPreparation
import Verif.Sim.Crosstalk

/-!
# C165: inexact models of systems with noise

`OperationNoiseInfidelity` (cost_functions.py:1320-1422), `StateNoiseInfidelity` (cost_functions.py:1106-1172) and
`IncoherentLeakageError` (cost_functions.py:1694-1747) with two Monte Carlo solvers (`SchroedingerSMonteCarlo`,
solver_algorithms.py:1055-1330) whose Hamiltonians, amplitudes, noise operators and samples differ.
-/

namespace Verif.Sim
open Verif Verif.Transfer Verif.Operator Verif.Solver Verif.Cost Matrix

section
open scoped Matrix.Norms.L2Operator
variable {n m : Type} [Fintype n] [DecidableEq n]

/-! ## Specification -/

/-- The Hamiltonian of time step `i` with the noise `s` (by operator and time step). -/
noncomputable def totalHam (p : SPar n m) (hN : List (Matrix n n ℂ)) (u : Solver.Pulse) (s : Nat → Nat → ℝ) (i : Nat) : Matrix n n ℂ :=
  hamiltonian (p.drift.getD i 0) p.ctrl (u.getD i []) + ∑ j : Fin hN.length, ((s j i : ℝ) : ℂ) • hN[j]

/-- How far the Hamiltonians of trace `k` are apart: the sum of duration times operator norm of the difference. -/
noncomputable def departure (p r : SPar n m) (M M' : MC n m) (times : List ℝ) (u v : Solver.Pulse) (k : Nat) : ℝ :=
  ∑ i : Fin times.length, |times[i]| *
    ‖totalHam p M.hNoise u (fun j t => M.samples.val j k t) i - totalHam r M'.hNoise v (fun j t => M'.samples.val j k t) i‖

/-- The same without noise. -/
noncomputable def departure₀ (p r : SPar n m) (times : List ℝ) (u v : Solver.Pulse) : ℝ :=
  ∑ i : Fin times.length, |times[i]| *
    ‖hamiltonian (p.drift.getD i 0) p.ctrl (u.getD i []) - hamiltonian (r.drift.getD i 0) r.ctrl (v.getD i [])‖

/-- Two models of the same experiment with noise: the same time steps, initial operator or state and number of traces. -/
structure Models (p r : SPar n m) (τ : List ℝ) (M M' : MC n m) : Prop where
  times : r.xTimes τ = p.xTimes τ
  init : r.init = p.init
  pulse : NoisyPulse p τ M.hNoise
  pulse' : NoisyPulse r τ M'.hNoise
  given : Given M p τ
  given' : Given M' r τ
  procs : M.ProcsOk
  procs' : M'.ProcsOk
  traces : M'.nTraces = M.nTraces

/-! ## Lemmas -/

theorem totalHam_hermitian {p : SPar n m} {τ : List ℝ} {hN : List (Matrix n n ℂ)} (h : NoisyPulse p τ hN) (u : Solver.Pulse) (s : Nat → Nat → ℝ)
    {i : Nat} (hi : i < (p.xTimes τ).length) : (totalHam p hN u s i).IsHermitian := by
  refine Matrix.IsHermitian.add (hamiltonian_isHermitian _ ?_ h.ctrl) ?_
  · have : i < p.drift.length := by rw [h.valid.2.1]; exact hi
    rw [List.getD_eq_getElem _ _ this]
    exact h.drift _ (List.getElem_mem _)
  · unfold Matrix.IsHermitian
    rw [Matrix.conjTranspose_sum]
    refine Finset.sum_congr rfl fun j _ => ?_
    have hj : (hN[j]).IsHermitian := h.noise _ (List.getElem_mem _)
    rw [Matrix.conjTranspose_smul, hj.eq]
    simp

/-- The time evolution with the noise `s`. -/
noncomputable def noisyEvolve (p : SPar n m) (hN : List (Matrix n n ℂ)) (times : List ℝ) (u : Solver.Pulse) (s : Nat → Nat → ℝ) : Matrix n n ℂ :=
  evolve (List.ofFn fun i : Fin times.length => (times[i], totalHam p hN u s i))

theorem noisyFinal_evolve (p : SPar n m) (hN : List (Matrix n n ℂ)) (τ : List ℝ) (u : Solver.Pulse) (s : Nat → Nat → ℝ)
    (z : Fin hN.length → Fin (p.xTimes τ).length → ℝ) (hz : ∀ j t, z j t = s j t) :
    noisyFinal p hN τ u z = noisyEvolve p hN (p.xTimes τ) u s * p.init := by
  unfold noisyEvolve
  rw [← foldl_evolve]
  unfold noisyFinal
  have : List.ofFn (noisyStep p hN τ u z) = (List.ofFn fun i : Fin (p.xTimes τ).length => ((p.xTimes τ)[i], totalHam p hN u s i)).map
      fun x => NormedSpace.exp (((x.1 : ℝ) : ℂ) • ((-Complex.I) • x.2)) := by
    rw [List.map_ofFn]
    congr 1
    funext i
    unfold noisyStep
    simp only [hz]
    rfl
  rw [this, List.foldl_map]

theorem noisyEvolve_unitary {p : SPar n m} {τ : List ℝ} {hN : List (Matrix n n ℂ)} (h : NoisyPulse p τ hN) (u : Solver.Pulse)
    (s : Nat → Nat → ℝ) : noisyEvolve p hN (p.xTimes τ) u s ∈ Matrix.unitaryGroup n ℂ := by
  have := noisyFinal_unitary (⟨p.L, p.method, p.skew, p.calcDeriv, p.approx, 1, p.drift, p.ctrl, p.tf, p.xTimes, p.amp⟩ : SPar n n) hN τ
    ⟨h.valid.1, h.valid.2.1, h.valid.2.2⟩ h.drift h.ctrl h.noise (one_mem _) u fun j t => s j t
  rw [noisyFinal_evolve _ hN τ u s _ fun _ _ => rfl, Matrix.mul_one] at this
  exact this

theorem noisyEvolve_near {p r : SPar n m} {τ : List ℝ} {hN hN' : List (Matrix n n ℂ)} (ht : r.xTimes τ = p.xTimes τ) (h : NoisyPulse p τ hN)
    (h' : NoisyPulse r τ hN') (u v : Solver.Pulse) (s s' : Nat → Nat → ℝ) :
    ‖noisyEvolve p hN (p.xTimes τ) u s - noisyEvolve r hN' (p.xTimes τ) v s'‖ ≤
      ∑ i : Fin (p.xTimes τ).length, |(p.xTimes τ)[i]| * ‖totalHam p hN u s i - totalHam r hN' v s' i‖ := by
  refine (evolve_apart ?_ ?_ ?_).trans (le_of_eq ?_)
  · simp [List.map_ofFn, Function.comp_def]
  · intro x hx
    obtain ⟨i, rfl⟩ := (List.mem_ofFn' _ _).mp hx
    exact totalHam_hermitian h u s i.2
  · intro x hx
    obtain ⟨i, rfl⟩ := (List.mem_ofFn' _ _).mp hx
    exact totalHam_hermitian h' v s' (by rw [ht]; exact i.2)
  · unfold apartness
    rw [← List.sum_ofFn]
    congr 1
    refine List.ext_getElem (by simp) fun i h1 h2 => ?_
    simp

theorem departure_eq₀ (p r : SPar n m) (hN hN' : List (Matrix n n ℂ)) (times : List ℝ) (u v : Solver.Pulse) :
    ∑ i : Fin times.length, |times[i]| * ‖totalHam p hN u (fun _ _ => 0) i - totalHam r hN' v (fun _ _ => 0) i‖ = departure₀ p r times u v := by
  simp [totalHam, departure₀]

omit [Fintype n] [DecidableEq n] in
theorem means_near {K : Nat} {x y S : Fin K → ℝ} (hx : ∀ k, 0 ≤ x k) (hy : ∀ k, 0 ≤ y k) (hS : ∀ k, 0 ≤ S k) (h : ∀ k, |√(x k) - √(y k)| ≤ S k) :
    |√((∑ k, x k) / K) - √((∑ k, y k) / K)| ≤ √((∑ k, S k ^ 2) / K) := by
  have hm : ∀ f : Fin K → ℝ, mean ((List.finRange K).map f) = (∑ k, f k) / K := by
    intro f
    unfold mean
    rw [List.length_map, List.length_finRange, ← List.sum_ofFn, List.ofFn_eq_map]
  rw [← hm, ← hm, ← hm]
  have a1 := sqrt_mean_le (List.finRange K) x y (fun k => S k ^ 2) (fun k _ => hx k) (fun k _ => hy k) (fun k _ => sq_nonneg _)
    fun k _ => by rw [Real.sqrt_sq (hS k)]; have := abs_le.mp (h k); linarith [this.2]
  have a2 := sqrt_mean_le (List.finRange K) y x (fun k => S k ^ 2) (fun k _ => hy k) (fun k _ => hx k) (fun k _ => sq_nonneg _)
    fun k _ => by rw [Real.sqrt_sq (hS k)]; have := abs_le.mp (h k); linarith [this.1]
  exact abs_le.mpr ⟨by linarith, by linarith⟩

theorem departure_nonneg (p r : SPar n m) (M M' : MC n m) (times : List ℝ) (u v : Solver.Pulse) (k : Nat) :
    0 ≤ departure p r M M' times u v k :=
  Finset.sum_nonneg fun _ _ => mul_nonneg (abs_nonneg _) (norm_nonneg _)

theorem departure₀_nonneg (p r : SPar n m) (times : List ℝ) (u v : Solver.Pulse) : 0 ≤ departure₀ p r times u v :=
  Finset.sum_nonneg fun _ _ => mul_nonneg (abs_nonneg _) (norm_nonneg _)

/-- The evolutions of trace `k` and without noise, of both models. -/
theorem Models.evolutions {p r : SPar n m} {τ : List ℝ} {M M' : MC n m} (h : Models p r τ M M') (u v : Solver.Pulse) (k : Nat) :
    ∃ U V U₀ V₀ : Matrix n n ℂ, U ∈ Matrix.unitaryGroup n ℂ ∧ V ∈ Matrix.unitaryGroup n ℂ ∧ U₀ ∈ Matrix.unitaryGroup n ℂ ∧
      V₀ ∈ Matrix.unitaryGroup n ℂ ∧ noisyFinal p M.hNoise τ u (traceOf _ _ M.samples k) = U * p.init ∧
      noisyFinal r M'.hNoise τ v (traceOf _ _ M'.samples k) = V * p.init ∧ noisyFinal p M.hNoise τ u 0 = U₀ * p.init ∧
      noisyFinal r M'.hNoise τ v 0 = V₀ * p.init ∧ ‖U - V‖ ≤ departure p r M M' (p.xTimes τ) u v k ∧
      ‖U₀ - V₀‖ ≤ departure₀ p r (p.xTimes τ) u v := by
  have k' : ∀ s, noisyEvolve r M'.hNoise (p.xTimes τ) v s ∈ Matrix.unitaryGroup n ℂ := fun s => by
    rw [← h.times]; exact noisyEvolve_unitary h.pulse' v s
  have e' : ∀ s (z : Fin M'.hNoise.length → Fin (r.xTimes τ).length → ℝ), (∀ j t, z j t = s j t) →
      noisyFinal r M'.hNoise τ v z = noisyEvolve r M'.hNoise (p.xTimes τ) v s * p.init := fun s z hz => by
    rw [noisyFinal_evolve r M'.hNoise τ v s z hz, h.times, h.init]
  refine ⟨_, _, _, _, noisyEvolve_unitary h.pulse u fun j t => M.samples.val j k t, k' fun j t => M'.samples.val j k t,
    noisyEvolve_unitary h.pulse u fun _ _ => 0, k' fun _ _ => 0, noisyFinal_evolve p _ τ u _ _ fun _ _ => rfl, e' _ _ fun _ _ => rfl,
    noisyFinal_evolve p _ τ u _ _ fun _ _ => rfl, e' _ _ fun _ _ => rfl, ?_, ?_⟩
  · exact noisyEvolve_near h.times h.pulse h.pulse' u v _ _
  · exact (noisyEvolve_near h.times h.pulse h.pulse' u v _ _).trans (le_of_eq (departure_eq₀ _ _ _ _ _ _ _))

theorem unitary_diff {U V I : Matrix n n ℂ} (hI : I ∈ Matrix.unitaryGroup n ℂ) : ‖U * I - V * I‖ = ‖U - V‖ := by
  rw [← Matrix.sub_mul]
  exact CStarRing.norm_mul_mem_unitary (U - V) hI

omit [DecidableEq n] in
/-- The infidelity of two operations is symmetric. -/
theorem entFid_symm (cl : Closest) (mcu : Bool) (T U : Matrix n n ℂ) : entFid (n := n) cl none T U mcu = entFid (n := n) cl none U T mcu := by
  have ht : ∀ T U : Matrix n n ℂ, entFid (n := n) cl none T U mcu = ‖(Tᴴ * U).trace‖ ^ 2 / Fintype.card n / Fintype.card n := by
    intro T U
    cases mcu <;> rfl
  rw [ht, ht]
  have : (Tᴴ * U).trace = star (Uᴴ * T).trace := by
    rw [← Matrix.trace_conjTranspose, Matrix.conjTranspose_mul, Matrix.conjTranspose_conjTranspose]
  rw [this, norm_star]

/-! ## Properties -/

/-- **C165** The square roots of the noise infidelities of two models differ by at most the root mean square of the distances of their
Hamiltonians in the traces. -/
theorem c165_infidelity (p r : SPar n n) (τ : List ℝ) (M M' : MC n n) (h : Models p r τ M M') (hi : p.init ∈ Matrix.unitaryGroup n ℂ)
    (cl : Closest) (cs : Option (List n)) (hcs : ∀ l, cs = some l → l.Nodup) (hne : Nonempty (CompIdx cs)) (mcu : Bool)
    (hm : mcu = false ∨ cs = none) (T : Matrix (CompIdx cs) (CompIdx cs) ℂ) (hT : T ∈ Matrix.unitaryGroup (CompIdx cs) ℂ)
    (y y' u v : Solver.Pulse) (hu : ampsOf p.cfg τ y = some u) (hv : ampsOf r.cfg τ y' = some v) (z x z' x' : Solver.Pulse) :
    ∃ c c' : ℝ, mcCosts cl cs T mcu false M (p.xTimes τ) z x u = .ok c ∧ mcCosts cl cs T mcu false M' (r.xTimes τ) z' x' v = .ok c' ∧
      0 ≤ c ∧ 0 ≤ c' ∧ |√c - √c'| ≤ √((∑ k : Fin M.nTraces, departure p r M M' (p.xTimes τ) u v k ^ 2) / M.nTraces) := by
  have hK := h.traces
  have q := h.pulse
  have q' := h.pulse'
  have g := h.given
  have g' := h.given'
  have e1 := mcCosts_value p τ q.valid q.stable q.method q.expm q.times M g.base h.procs g.amp g.ops g.traces g.times cl cs T mcu false y u z x hu
  have e2 := mcCosts_value r τ q'.valid q'.stable q'.method q'.expm q'.times M' g'.base h.procs' g'.amp g'.ops g'.traces g'.times cl cs T mcu
    false y' v z' x' hv
  have hr : r.init ∈ Matrix.unitaryGroup n ℂ := by rw [h.init]; exact hi
  have r1 := fun k : Nat => traceInfidelity_range cl cs hne hcs T mcu false hm (Or.inr hT) p M.hNoise τ q.valid q.drift q.ctrl q.noise hi u
    (traceOf _ _ M.samples k)
  have r2 := fun k : Nat => traceInfidelity_range cl cs hne hcs T mcu false hm (Or.inr hT) r M'.hNoise τ q'.valid q'.drift q'.ctrl q'.noise hr v
    (traceOf _ _ M'.samples k)
  have e3 : (Except.ok ((∑ k : Fin M'.nTraces, traceInfidelity cl cs T mcu false r M'.hNoise τ v (traceOf _ _ M'.samples k)) / M'.nTraces) :
      Except PyErr ℝ) = .ok ((∑ k : Fin M.nTraces, traceInfidelity cl cs T mcu false r M'.hNoise τ v (traceOf _ _ M'.samples k)) / M.nTraces) := by
    rw [hK]
  refine ⟨_, _, e1, e2.trans e3, div_nonneg (Finset.sum_nonneg fun k _ => (r1 k).1) (Nat.cast_nonneg _),
    div_nonneg (Finset.sum_nonneg fun k _ => (r2 k).1) (Nat.cast_nonneg _), ?_⟩
  refine means_near (fun k => (r1 k).1) (fun k => (r2 k).1) (fun k => departure_nonneg _ _ _ _ _ _ _ _) fun k => ?_
  obtain ⟨U, V, U₀, V₀, hU, hV, -, -, f1, f2, -, -, d, -⟩ := h.evolutions u v k
  show |√(1 - entFid cl cs T (noisyFinal p M.hNoise τ u (traceOf _ _ M.samples k)) mcu) -
    √(1 - entFid cl cs T (noisyFinal r M'.hNoise τ v (traceOf _ _ M'.samples k)) mcu)| ≤ _
  rw [f1, f2]
  obtain ⟨b1, b2⟩ := infidelity_near cl hcs hne hm hT (mul_mem hU hi) (mul_mem hV hi)
  rw [unitary_diff hi] at b1 b2
  exact abs_le.mpr ⟨by linarith, by linarith⟩

/-- **C165** With neglected systematic errors, the distance of the Hamiltonians without noise is added. -/
theorem c165_neglected (p r : SPar n n) (τ : List ℝ) (M M' : MC n n) (h : Models p r τ M M') (hi : p.init ∈ Matrix.unitaryGroup n ℂ)
    [hne : Nonempty n] (cl : Closest) (mcu : Bool) (T : Matrix n n ℂ)
    (y y' u v : Solver.Pulse) (hu : ampsOf p.cfg τ y = some u) (hv : ampsOf r.cfg τ y' = some v) (z x z' x' : Solver.Pulse) :
    ∃ c c' : ℝ, mcCosts (n := n) cl none T mcu true M (p.xTimes τ) z x u = .ok c ∧
      mcCosts (n := n) cl none T mcu true M' (r.xTimes τ) z' x' v = .ok c' ∧ 0 ≤ c ∧ 0 ≤ c' ∧
      |√c - √c'| ≤ √((∑ k : Fin M.nTraces, (departure p r M M' (p.xTimes τ) u v k + departure₀ p r (p.xTimes τ) u v) ^ 2) / M.nTraces) := by
  have hK := h.traces
  have q := h.pulse
  have q' := h.pulse'
  have g := h.given
  have g' := h.given'
  have e1 := mcCosts_value (n := n) p τ q.valid q.stable q.method q.expm q.times M g.base h.procs g.amp g.ops g.traces g.times cl none T mcu true
    y u z x hu
  have e2 := mcCosts_value (n := n) r τ q'.valid q'.stable q'.method q'.expm q'.times M' g'.base h.procs' g'.amp g'.ops g'.traces g'.times cl none T
    mcu true y' v z' x' hv
  have hr : r.init ∈ Matrix.unitaryGroup n ℂ := by rw [h.init]; exact hi
  have r1 := fun k : Nat => traceInfidelity_range (n := n) cl none hne (by simp) T mcu true (Or.inr rfl) (Or.inl rfl) p M.hNoise τ q.valid q.drift
    q.ctrl q.noise hi u (traceOf _ _ M.samples k)
  have r2 := fun k : Nat => traceInfidelity_range (n := n) cl none hne (by simp) T mcu true (Or.inr rfl) (Or.inl rfl) r M'.hNoise τ q'.valid
    q'.drift q'.ctrl q'.noise hr v (traceOf _ _ M'.samples k)
  have e3 : (Except.ok ((∑ k : Fin M'.nTraces, traceInfidelity (n := n) cl none T mcu true r M'.hNoise τ v (traceOf _ _ M'.samples k)) /
      M'.nTraces) : Except PyErr ℝ) =
      .ok ((∑ k : Fin M.nTraces, traceInfidelity (n := n) cl none T mcu true r M'.hNoise τ v (traceOf _ _ M'.samples k)) / M.nTraces) := by
    rw [hK]
  refine ⟨_, _, e1, e2.trans e3, div_nonneg (Finset.sum_nonneg fun k _ => (r1 k).1) (Nat.cast_nonneg _),
    div_nonneg (Finset.sum_nonneg fun k _ => (r2 k).1) (Nat.cast_nonneg _), ?_⟩
  refine means_near (fun k => (r1 k).1) (fun k => (r2 k).1)
    (fun k => add_nonneg (departure_nonneg _ _ _ _ _ _ _ _) (departure₀_nonneg _ _ _ _ _)) fun k => ?_
  obtain ⟨U, V, U₀, V₀, hU, hV, hU₀, hV₀, f1, f2, f3, f4, d, d₀⟩ := h.evolutions u v k
  have t1 : traceInfidelity (n := n) cl none T mcu true p M.hNoise τ u (traceOf _ _ M.samples k) =
      1 - entFid (n := n) cl none (U₀ * p.init) (U * p.init) mcu := by
    rw [← f1, ← f3]; rfl
  have t2 : traceInfidelity (n := n) cl none T mcu true r M'.hNoise τ v (traceOf _ _ M'.samples k) =
      1 - entFid (n := n) cl none (V₀ * p.init) (V * p.init) mcu := by
    rw [← f2, ← f4]; rfl
  rw [t1, t2]
  obtain ⟨b1, b2⟩ := infidelity_near (n := n) (cs := none) cl (by simp) hne (mcu := mcu) (Or.inr rfl) (T := U₀ * p.init) (mul_mem hU₀ hi)
    (mul_mem hU hi) (mul_mem hV hi)
  obtain ⟨b3, b4⟩ := infidelity_near (n := n) (cs := none) cl (by simp) hne (mcu := mcu) (Or.inr rfl) (T := V * p.init) (mul_mem hV hi)
    (mul_mem hU₀ hi) (mul_mem hV₀ hi)
  rw [unitary_diff hi] at b1 b2 b3 b4
  rw [entFid_symm cl mcu (V * p.init) (U₀ * p.init), entFid_symm cl mcu (V * p.init) (V₀ * p.init)] at b3 b4
  exact abs_le.mpr ⟨by linarith, by linarith⟩

/-- **C165** The same for leakage. -/
theorem c165_leakage (p r : SPar n n) (τ : List ℝ) (M M' : MC n n) (h : Models p r τ M M') (hi : p.init ∈ Matrix.unitaryGroup n ℂ)
    (l : List n) (hl : l.Nodup) (hne : l ≠ []) (y y' u v : Solver.Pulse) (hu : ampsOf p.cfg τ y = some u) (hv : ampsOf r.cfg τ y' = some v)
    (z x z' x' : Solver.Pulse) :
    ∃ c c' : ℝ, mcLeakCosts l M (p.xTimes τ) z x u = .ok c ∧ mcLeakCosts l M' (r.xTimes τ) z' x' v = .ok c' ∧
      0 ≤ c ∧ 0 ≤ c' ∧ |√c - √c'| ≤ √((∑ k : Fin M.nTraces, departure p r M M' (p.xTimes τ) u v k ^ 2) / M.nTraces) := by
  have hK := h.traces
  have q := h.pulse
  have q' := h.pulse'
  have g := h.given
  have g' := h.given'
  have e1 := mcLeakCosts_value p τ M.hNoise q l M g.base rfl h.procs g.amp g.ops g.traces g.times y u z x hu
  have e2 := mcLeakCosts_value r τ M'.hNoise q' l M' g'.base rfl h.procs' g'.amp g'.ops g'.traces g'.times y' v z' x' hv
  have hr : r.init ∈ Matrix.unitaryGroup n ℂ := by rw [h.init]; exact hi
  have r1 := fun k : Nat => (traceLeakage_range l hl hne p M.hNoise τ q hi u (traceOf _ _ M.samples k)).1
  have r2 := fun k : Nat => (traceLeakage_range l hl hne r M'.hNoise τ q' hr v (traceOf _ _ M'.samples k)).1
  have e3 : (Except.ok ((∑ k : Fin M'.nTraces, traceLeakage l r M'.hNoise τ v (traceOf _ _ M'.samples k)) / M'.nTraces) : Except PyErr ℝ) =
      .ok ((∑ k : Fin M.nTraces, traceLeakage l r M'.hNoise τ v (traceOf _ _ M'.samples k)) / M.nTraces) := by
    rw [hK]
  refine ⟨_, _, e1, e2.trans e3, div_nonneg (Finset.sum_nonneg fun k _ => r1 k) (Nat.cast_nonneg _),
    div_nonneg (Finset.sum_nonneg fun k _ => r2 k) (Nat.cast_nonneg _), ?_⟩
  refine means_near (fun k => r1 k) (fun k => r2 k) (fun k => departure_nonneg _ _ _ _ _ _ _ _) fun k => ?_
  obtain ⟨U, V, U₀, V₀, hU, hV, -, -, f1, f2, -, -, d, -⟩ := h.evolutions u v k
  rw [traceLeakage_eq, traceLeakage_eq, f1, f2]
  have b1 := leakOf_near hl hne (mul_mem hU hi) (mul_mem hV hi)
  have b2 := leakOf_near hl hne (mul_mem hV hi) (mul_mem hU hi)
  rw [unitary_diff hi] at b1 b2
  rw [norm_sub_rev] at b1
  exact abs_le.mpr ⟨by linarith, by linarith⟩

/-- **C165** The same for states. -/
theorem c165_states (p r : SPar n (Fin 1)) (τ : List ℝ) (M M' : MC n (Fin 1)) (h : Models p r τ M M') (hi : ∑ i, ‖p.init i 0‖ ^ 2 = 1)
    (cs : Option (List n)) (hcs : ∀ l, cs = some l → l.Nodup) (T : Matrix (Fin 1) (CompIdx cs) ℂ) (hT : ∑ i, ‖T 0 i‖ ^ 2 = 1) (b b' : Bool)
    (y y' u v : Solver.Pulse) (hu : ampsOf p.cfg τ y = some u) (hv : ampsOf r.cfg τ y' = some v) (z x z' x' : Solver.Pulse) :
    ∃ c c' : ℝ, mcStateCosts cs T b false M (p.xTimes τ) z x u = .ok c ∧ mcStateCosts cs T b' false M' (r.xTimes τ) z' x' v = .ok c' ∧
      0 ≤ c ∧ 0 ≤ c' ∧ |√c - √c'| ≤ √((∑ k : Fin M.nTraces, departure p r M M' (p.xTimes τ) u v k ^ 2) / M.nTraces) := by
  have hK := h.traces
  have q := h.pulse
  have q' := h.pulse'
  have g := h.given
  have g' := h.given'
  have e1 := mcStateCosts_value p τ M.hNoise q cs T b false M g.base rfl h.procs g.amp g.ops g.traces g.times y u z x hu
  have e2 := mcStateCosts_value r τ M'.hNoise q' cs T b' false M' g'.base rfl h.procs' g'.amp g'.ops g'.traces g'.times y' v z' x' hv
  have hr : ∑ i, ‖r.init i 0‖ ^ 2 = 1 := by rw [h.init]; exact hi
  have r1 := fun k : Nat => (traceStateInfidelity_range cs hcs T false (Or.inr hT.le) p M.hNoise τ q hi u (traceOf _ _ M.samples k)).1
  have r2 := fun k : Nat => (traceStateInfidelity_range cs hcs T false (Or.inr hT.le) r M'.hNoise τ q' hr v (traceOf _ _ M'.samples k)).1
  have e3 : (Except.ok ((∑ k : Fin M'.nTraces, traceStateInfidelity cs T false r M'.hNoise τ v (traceOf _ _ M'.samples k)) / M'.nTraces) :
      Except PyErr ℝ) =
      .ok ((∑ k : Fin M.nTraces, traceStateInfidelity cs T false r M'.hNoise τ v (traceOf _ _ M'.samples k)) / M.nTraces) := by
    rw [hK]
  refine ⟨_, _, e1, e2.trans e3, div_nonneg (Finset.sum_nonneg fun k _ => r1 k) (Nat.cast_nonneg _),
    div_nonneg (Finset.sum_nonneg fun k _ => r2 k) (Nat.cast_nonneg _), ?_⟩
  refine means_near (fun k => r1 k) (fun k => r2 k) (fun k => departure_nonneg _ _ _ _ _ _ _ _) fun k => ?_
  obtain ⟨U, V, U₀, V₀, hU, hV, -, -, f1, f2, -, -, d, -⟩ := h.evolutions u v k
  show |√(1 - ‖∑ i, T 0 i * noisyFinal p M.hNoise τ u (traceOf _ _ M.samples k) (sel cs i) 0‖ ^ 2) -
    √(1 - ‖∑ i, T 0 i * noisyFinal r M'.hNoise τ v (traceOf _ _ M'.samples k) (sel cs i) 0‖ ^ 2)| ≤ _
  rw [f1, f2]
  have n1 : ∑ i, ‖(U * p.init) i 0‖ ^ 2 = 1 := by rw [unitary_column hU, hi]
  have n2 : ∑ i, ‖(V * p.init) i 0‖ ^ 2 = 1 := by rw [unitary_column hV, hi]
  have b1 := state_near_sub hcs (T := fun i => T 0 i) hT (ψ := fun i => (U * p.init) i 0) (φ := fun i => (V * p.init) i 0) n1 n2
  have b2 := state_near_sub hcs (T := fun i => T 0 i) hT (ψ := fun i => (V * p.init) i 0) (φ := fun i => (U * p.init) i 0) n2 n1
  have d1 : √(∑ i, ‖(U * p.init) i 0 - (V * p.init) i 0‖ ^ 2) ≤ ‖U - V‖ := by
    have := column_le (U - V) p.init
    rw [hi, Real.sqrt_one, mul_one, Matrix.sub_mul] at this
    exact this
  have d2 : √(∑ i, ‖(V * p.init) i 0 - (U * p.init) i 0‖ ^ 2) ≤ ‖U - V‖ := by
    simpa only [norm_sub_rev] using d1
  exact abs_le.mpr ⟨by linarith, by linarith⟩

/-- **C165** For states with neglected systematic errors, the distance of the Hamiltonians without noise is added. -/
theorem c165_states_neglected (p r : SPar n (Fin 1)) (τ : List ℝ) (M M' : MC n (Fin 1)) (h : Models p r τ M M') (hi : ∑ i, ‖p.init i 0‖ ^ 2 = 1)
    (T : Matrix (Fin 1) n ℂ) (b b' : Bool)
    (y y' u v : Solver.Pulse) (hu : ampsOf p.cfg τ y = some u) (hv : ampsOf r.cfg τ y' = some v) (z x z' x' : Solver.Pulse) :
    ∃ c c' : ℝ, mcStateCosts (n := n) none T b true M (p.xTimes τ) z x u = .ok c ∧
      mcStateCosts (n := n) none T b' true M' (r.xTimes τ) z' x' v = .ok c' ∧ 0 ≤ c ∧ 0 ≤ c' ∧
      |√c - √c'| ≤ √((∑ k : Fin M.nTraces, (departure p r M M' (p.xTimes τ) u v k + departure₀ p r (p.xTimes τ) u v) ^ 2) / M.nTraces) := by
  have hK := h.traces
  have q := h.pulse
  have q' := h.pulse'
  have g := h.given
  have g' := h.given'
  have e1 := mcStateCosts_value (n := n) p τ M.hNoise q none T b true M g.base rfl h.procs g.amp g.ops g.traces g.times y u z x hu
  have e2 := mcStateCosts_value (n := n) r τ M'.hNoise q' none T b' true M' g'.base rfl h.procs' g'.amp g'.ops g'.traces g'.times y' v z' x' hv
  have hr : ∑ i, ‖r.init i 0‖ ^ 2 = 1 := by rw [h.init]; exact hi
  have r1 := fun k : Nat =>
    (traceStateInfidelity_range (n := n) none (by simp) T true (Or.inl rfl) p M.hNoise τ q hi u (traceOf _ _ M.samples k)).1
  have r2 := fun k : Nat =>
    (traceStateInfidelity_range (n := n) none (by simp) T true (Or.inl rfl) r M'.hNoise τ q' hr v (traceOf _ _ M'.samples k)).1
  have e3 : (Except.ok ((∑ k : Fin M'.nTraces, traceStateInfidelity (n := n) none T true r M'.hNoise τ v (traceOf _ _ M'.samples k)) /
      M'.nTraces) : Except PyErr ℝ) =
      .ok ((∑ k : Fin M.nTraces, traceStateInfidelity (n := n) none T true r M'.hNoise τ v (traceOf _ _ M'.samples k)) / M.nTraces) := by
    rw [hK]
  refine ⟨_, _, e1, e2.trans e3, div_nonneg (Finset.sum_nonneg fun k _ => r1 k) (Nat.cast_nonneg _),
    div_nonneg (Finset.sum_nonneg fun k _ => r2 k) (Nat.cast_nonneg _), ?_⟩
  refine means_near (fun k => r1 k) (fun k => r2 k)
    (fun k => add_nonneg (departure_nonneg _ _ _ _ _ _ _ _) (departure₀_nonneg _ _ _ _ _)) fun k => ?_
  obtain ⟨U, V, U₀, V₀, hU, hV, hU₀, hV₀, f1, f2, f3, f4, d, d₀⟩ := h.evolutions u v k
  have t1 : traceStateInfidelity (n := n) none T true p M.hNoise τ u (traceOf _ _ M.samples k) =
      1 - ‖∑ i, star ((U₀ * p.init) i 0) * (U * p.init) i 0‖ ^ 2 := by
    rw [← f1, ← f3]; rfl
  have t2 : traceStateInfidelity (n := n) none T true r M'.hNoise τ v (traceOf _ _ M'.samples k) =
      1 - ‖∑ i, star ((V₀ * p.init) i 0) * (V * p.init) i 0‖ ^ 2 := by
    rw [← f2, ← f4]; rfl
  rw [t1, t2]
  have n1 : ∀ {W : Matrix n n ℂ}, W ∈ Matrix.unitaryGroup n ℂ → ∑ i, ‖(W * p.init) i 0‖ ^ 2 = 1 := fun hW => by rw [unitary_column hW, hi]
  have n2 : ∀ {W : Matrix n n ℂ}, W ∈ Matrix.unitaryGroup n ℂ → ∑ i, ‖star ((W * p.init) i 0)‖ ^ 2 = 1 := fun hW => by
    simp only [norm_star]; exact n1 hW
  have dist : ∀ W W' : Matrix n n ℂ, √(∑ i, ‖(W * p.init) i 0 - (W' * p.init) i 0‖ ^ 2) ≤ ‖W - W'‖ := fun W W' => by
    have := column_le (W - W') p.init
    rw [hi, Real.sqrt_one, mul_one, Matrix.sub_mul] at this
    exact this
  have near : ∀ {W A B : Matrix n n ℂ}, W ∈ Matrix.unitaryGroup n ℂ → A ∈ Matrix.unitaryGroup n ℂ → B ∈ Matrix.unitaryGroup n ℂ →
      √(1 - ‖∑ i, star ((W * p.init) i 0) * (A * p.init) i 0‖ ^ 2) ≤ √(1 - ‖∑ i, star ((W * p.init) i 0) * (B * p.init) i 0‖ ^ 2) + ‖A - B‖ :=
    fun {W A B} hW hA hB => (state_near (t := fun i => star ((W * p.init) i 0)) (n2 hW) (n1 hA) (n1 hB)).trans
      (add_le_add le_rfl (dist A B))
  have symm : ∀ A B : Matrix n n ℂ, ‖∑ i, star ((A * p.init) i 0) * (B * p.init) i 0‖ = ‖∑ i, star ((B * p.init) i 0) * (A * p.init) i 0‖ := by
    intro A B
    rw [← norm_star, star_sum]
    congr 1
    refine Finset.sum_congr rfl fun i _ => ?_
    rw [star_mul, star_star]
  have b1 := near hU₀ hU hV
  have b2 := near hU₀ hV hU
  have b3 := near hV hU₀ hV₀
  have b4 := near hV hV₀ hU₀
  rw [symm V U₀, symm V V₀] at b3 b4
  rw [norm_sub_rev] at b2 b4
  exact abs_le.mpr ⟨by linarith, by linarith⟩

end

/-! ## Cases -/

namespace Ex165
open Ex115

/-- A qubit with noise of its frequency, and a model with other energies and with noise that does not change within the pulse. -/
noncomputable def real (L : Lapack (Fin 2)) : SPar (Fin 2) (Fin 2) :=
  ⟨L, .frechet, true, true, .none, 1, [Z, 0], [!![0, 1; 1, 0]], idTf, id, idAmp⟩
noncomputable def model (L : Lapack (Fin 2)) : SPar (Fin 2) (Fin 2) :=
  ⟨L, .frechet, true, true, .none, 1, [(1 / 2 : ℂ) • Z, 0], [!![0, 1; 1, 0]], idTf, id, idAmp⟩
noncomputable def noise (L : Lapack (Fin 2)) : MC (Fin 2) (Fin 2) :=
  ⟨(real L).cfg, [Z], .int 1, none, 3, ⟨1, 3, 2, fun _ k t => k + t⟩⟩
noncomputable def static (L : Lapack (Fin 2)) : MC (Fin 2) (Fin 2) :=
  ⟨(model L).cfg, [Z], .int 1, none, 3, ⟨1, 3, 2, fun _ k _ => k⟩⟩

theorem z_herm : (Z : Matrix (Fin 2) (Fin 2) ℂ).IsHermitian := by
  ext i j
  fin_cases i <;> fin_cases j <;> simp [Z]

theorem models {L : Lapack (Fin 2)} (hE : L.ExpmOk) : Models (real L) (model L) [1, 2] (noise L) (static L) where
  times := rfl
  init := rfl
  pulse := by
    refine ⟨⟨by simp [real], rfl, by simp [real]⟩, Or.inl ⟨rfl, rfl⟩, rfl, hE, by simp [real], ?_, ?_, ?_⟩ <;> intro H hH <;>
      simp only [real, noise, List.mem_cons, List.not_mem_nil, or_false] at hH
    · rcases hH with rfl | rfl
      · exact z_herm
      · exact Matrix.isHermitian_zero
    · subst hH
      ext i j
      fin_cases i <;> fin_cases j <;> simp
    · subst hH
      exact z_herm
  pulse' := by
    refine ⟨⟨by simp [model], rfl, by simp [model]⟩, Or.inl ⟨rfl, rfl⟩, rfl, hE, by simp [model], ?_, ?_, ?_⟩ <;> intro H hH <;>
      simp only [model, static, List.mem_cons, List.not_mem_nil, or_false] at hH
    · rcases hH with rfl | rfl
      · ext i j
        fin_cases i <;> fin_cases j <;> simp [Z]
      · exact Matrix.isHermitian_zero
    · subst hH
      ext i j
      fin_cases i <;> fin_cases j <;> simp
    · subst hH
      exact z_herm
  given := ⟨rfl, rfl, rfl, rfl, rfl⟩
  given' := ⟨rfl, rfl, rfl, rfl, rfl⟩
  procs := Or.inl rfl
  procs' := Or.inl rfl
  traces := rfl

theorem amps (L : Lapack (Fin 2)) (y : Solver.Pulse) (hl : y.length = 2) (hr : ∀ row ∈ y, row.length = 1) :
    ampsOf (real L).cfg [1, 2] y = some y ∧ ampsOf (model L).cfg [1, 2] y = some y :=
  ⟨ampsOf_simple L .frechet true .none 1 _ _ _ y (by rintro rfl; simp at hl) hl hr,
    ampsOf_simple L .frechet true .none 1 _ _ _ y (by rintro rfl; simp at hl) hl hr⟩

/-- `c165_infidelity`, `c165_neglected` and `c165_leakage` apply. -/
example (cl : Closest) : ∃ (L : Lapack (Fin 2)) (c c' d d' e e' : ℝ),
    mcCosts (n := Fin 2) cl none 1 false false (noise L) [1, 2] [] [] [[3], [4]] = .ok c ∧
    mcCosts (n := Fin 2) cl none 1 false false (static L) [1, 2] [] [] [[3], [4]] = .ok c' ∧
    mcCosts (n := Fin 2) cl none 0 false true (noise L) [1, 2] [] [] [[3], [4]] = .ok d ∧
    mcCosts (n := Fin 2) cl none 0 false true (static L) [1, 2] [] [] [[3], [4]] = .ok d' ∧
    mcLeakCosts [1] (noise L) [1, 2] [] [] [[3], [4]] = .ok e ∧ mcLeakCosts [1] (static L) [1, 2] [] [] [[3], [4]] = .ok e' ∧
    |√c - √c'| ≤ √((∑ k : Fin 3, departure (real L) (model L) (noise L) (static L) [1, 2] [[3], [4]] [[3], [4]] k ^ 2) / (3 : ℕ)) := by
  obtain ⟨L, -, -, hE, hF⟩ := lapack_exists (Fin 2)
  have ha := amps L [[3], [4]] rfl (by simp)
  obtain ⟨c, c', e1, e2, -, -, e3⟩ := c165_infidelity (real L) (model L) [1, 2] (noise L) (static L) (models hE) (one_mem _) cl none (by simp) ⟨(0 : Fin 2)⟩ false
    (Or.inl rfl) 1 (one_mem _) _ _ _ _ ha.1 ha.2 [] [] [] []
  obtain ⟨d, d', f1, f2, -⟩ := c165_neglected (real L) (model L) [1, 2] (noise L) (static L) (models hE) (one_mem _) cl false 0
    _ _ _ _ ha.1 ha.2 [] [] [] []
  obtain ⟨e, e', g1, g2, -⟩ := c165_leakage (real L) (model L) [1, 2] (noise L) (static L) (models hE) (one_mem _) [1] (by simp) (by simp)
    _ _ _ _ ha.1 ha.2 [] [] [] []
  exact ⟨L, c, c', d, d', e, e', e1, e2, f1, f2, g1, g2, e3⟩

/-- The same for the state prepared from the second basis state. -/
noncomputable def realState (L : Lapack (Fin 2)) : SPar (Fin 2) (Fin 1) :=
  ⟨L, .frechet, true, true, .none, !![0; 1], [Z, 0], [!![0, 1; 1, 0]], idTf, id, idAmp⟩
noncomputable def modelState (L : Lapack (Fin 2)) : SPar (Fin 2) (Fin 1) :=
  ⟨L, .frechet, true, true, .none, !![0; 1], [(1 / 2 : ℂ) • Z, 0], [!![0, 1; 1, 0]], idTf, id, idAmp⟩
noncomputable def noiseState (L : Lapack (Fin 2)) : MC (Fin 2) (Fin 1) := ⟨(realState L).cfg, [Z], .int 1, none, 3, (noise L).samples⟩
noncomputable def staticState (L : Lapack (Fin 2)) : MC (Fin 2) (Fin 1) := ⟨(modelState L).cfg, [Z], .int 1, none, 3, (static L).samples⟩

/-- `c165_states` and `c165_states_neglected` apply. -/
example : ∃ (L : Lapack (Fin 2)) (c c' d d' : ℝ),
    mcStateCosts (n := Fin 2) none !![1, 0] false false (noiseState L) [1, 2] [] [] [[3], [4]] = .ok c ∧
    mcStateCosts (n := Fin 2) none !![1, 0] true false (staticState L) [1, 2] [] [] [[3], [4]] = .ok c' ∧
    mcStateCosts (n := Fin 2) none !![1, 0] false true (noiseState L) [1, 2] [] [] [[3], [4]] = .ok d ∧
    mcStateCosts (n := Fin 2) none !![1, 0] true true (staticState L) [1, 2] [] [] [[3], [4]] = .ok d' := by
  obtain ⟨L, -, -, hE, hF⟩ := lapack_exists (Fin 2)
  have h := models hE
  have hw : Models (realState L) (modelState L) [1, 2] (noiseState L) (staticState L) :=
    ⟨rfl, rfl, ⟨⟨by simp [realState], rfl, by simp [realState]⟩, Or.inl ⟨rfl, rfl⟩, rfl, hE, by simp [realState], h.pulse.drift, h.pulse.ctrl,
      h.pulse.noise⟩, ⟨⟨by simp [modelState], rfl, by simp [modelState]⟩, Or.inl ⟨rfl, rfl⟩, rfl, hE, by simp [modelState], h.pulse'.drift,
      h.pulse'.ctrl, h.pulse'.noise⟩, ⟨rfl, rfl, rfl, rfl, rfl⟩, ⟨rfl, rfl, rfl, rfl, rfl⟩, Or.inl rfl, Or.inl rfl, rfl⟩
  have a1 : ampsOf (realState L).cfg [1, 2] [[3], [4]] = some [[3], [4]] := (amps L [[3], [4]] rfl (by simp)).1
  have a2 : ampsOf (modelState L).cfg [1, 2] [[3], [4]] = some [[3], [4]] := (amps L [[3], [4]] rfl (by simp)).2
  have hi : ∑ i, ‖(realState L).init i 0‖ ^ 2 = 1 := by simp [realState, Fin.sum_univ_two]
  have hT : ∑ i, ‖(!![1, 0] : Matrix (Fin 1) (Fin 2) ℂ) 0 i‖ ^ 2 = 1 := by simp [Fin.sum_univ_two]
  obtain ⟨c, c', e1, e2, -⟩ := c165_states (realState L) (modelState L) [1, 2] (noiseState L) (staticState L) hw hi none (by simp) !![1, 0] hT false
    true _ _ _ _ a1 a2 [] [] [] []
  obtain ⟨d, d', f1, f2, -⟩ := c165_states_neglected (realState L) (modelState L) [1, 2] (noiseState L) (staticState L) hw hi !![1, 0] false
    true _ _ _ _ a1 a2 [] [] [] []
  exact ⟨L, c, c', d, d', e1, e2, f1, f2⟩

end Ex165

end Verif.Sim
