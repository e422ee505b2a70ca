import Verif.Sim.RefinedNoise
import Verif.Sim.Mixing

/-!
# C172: affine amplitude functions with noise

The Monte Carlo solver (solver_algorithms.py:1015-1410) and the noise cost functions (cost_functions.py) for a system whose control amplitudes are
affine functions of the parameters of the time step, and for the system with the combined Hamiltonians.
-/

namespace Verif.Sim
open Verif Verif.Transfer Verif.Operator Verif.Solver Verif.Cost Matrix

variable {n m : Type} [Fintype n] [DecidableEq n]

/-! ## Specification -/

/-- `M'` simulates the system of `M` with other controls: control `k` is the sum of `A k l` times control `l` of `M`, and the drift has in addition
the sum of `b l` times control `l`. -/
structure Combined (p p' : SPar n m) (A : Fin p'.ctrl.length → Fin p.ctrl.length → ℝ) (b : Fin p.ctrl.length → ℝ) (τ τ' : List ℝ)
    (M M' : MC n m) : Prop where
  pulse : NoisyPulse p τ M.hNoise
  pulse' : NoisyPulse p' τ' M'.hNoise
  given : Given M p τ
  given' : Given M' p' τ'
  procs : M.ProcsOk
  procs' : M'.ProcsOk
  init : p'.init = p.init
  ctrl : ∀ k, p'.ctrl.get k = ∑ l, (A k l : ℂ) • p.ctrl.get l
  ops : M'.hNoise = M.hNoise
  traces : M'.nTraces = M.nTraces
  times : p'.xTimes τ' = p.xTimes τ
  drift : ∀ t < (p.xTimes τ).length, p'.drift.getD t 0 = p.drift.getD t 0 + ∑ l, (b l : ℂ) • p.ctrl.get l
  samples : ∀ j k t, j < M.hNoise.length → k < M.nTraces → t < (p.xTimes τ).length → M'.samples.val j k t = M.samples.val j k t

/-- The rows of `u` are the affine function of the rows of `v`. -/
def Affine {c c' : Nat} (A : Fin c' → Fin c → ℝ) (b : Fin c → ℝ) (N : Nat) (u v : Solver.Pulse) : Prop :=
  ∀ t < N, ∃ r : Fin c' → ℝ, v.getD t [] = List.ofFn r ∧ u.getD t [] = List.ofFn (mixRow A b r)

/-! ## Lemmas -/

theorem combined_hamiltonian (ctrl ctrl' : List (Matrix n n ℂ)) (A : Fin ctrl'.length → Fin ctrl.length → ℝ) (b : Fin ctrl.length → ℝ)
    (hc : ∀ k, ctrl'.get k = ∑ l, (A k l : ℂ) • ctrl.get l) (H₀ : Matrix n n ℂ) (r : Fin ctrl'.length → ℝ) :
    hamiltonian (H₀ + ∑ l, (b l : ℂ) • ctrl.get l) ctrl' (List.ofFn r) = hamiltonian H₀ ctrl (List.ofFn (mixRow A b r)) := by
  rw [← mix_hamiltonian ctrl A b H₀ r]
  congr 1
  conv_lhs => rw [← List.ofFn_get ctrl']
  exact congrArg List.ofFn (funext hc)

theorem noisyFinal_combined (p p' : SPar n m) (A : Fin p'.ctrl.length → Fin p.ctrl.length → ℝ) (b : Fin p.ctrl.length → ℝ) (τ τ' : List ℝ)
    (hN : List (Matrix n n ℂ)) (hi : p'.init = p.init) (hc : ∀ k, p'.ctrl.get k = ∑ l, (A k l : ℂ) • p.ctrl.get l)
    (hx : p'.xTimes τ' = p.xTimes τ)
    (hd : ∀ t < (p.xTimes τ).length, p'.drift.getD t 0 = p.drift.getD t 0 + ∑ l, (b l : ℂ) • p.ctrl.get l) (u v : Solver.Pulse)
    (hu : Affine A b (p.xTimes τ).length u v) (z : Fin hN.length → Fin (p.xTimes τ).length → ℝ)
    (z' : Fin hN.length → Fin (p'.xTimes τ').length → ℝ)
    (hz : ∀ j (t : Fin (p.xTimes τ).length) (i : Fin (p'.xTimes τ').length), (i : Nat) = t → z' j i = z j t) :
    noisyFinal p' hN τ' v z' = noisyFinal p hN τ u z := by
  unfold noisyFinal
  rw [hi]
  congr 1
  have hl : (p'.xTimes τ').length = (p.xTimes τ).length := congrArg List.length hx
  refine List.ext_getElem (by simpa using hl) fun t h1 h2 => ?_
  have ht : t < (p.xTimes τ).length := by simpa using h2
  rw [List.getElem_ofFn, List.getElem_ofFn]
  unfold noisyStep
  obtain ⟨r, r1, r2⟩ := hu t ht
  congr 2
  · show (((p'.xTimes τ')[t]'(by rw [hl]; exact ht) : ℝ) : ℂ) = _
    simp only [hx]
    rfl
  · congr 2
    · show hamiltonian (p'.drift.getD t 0) p'.ctrl (v.getD t []) = hamiltonian (p.drift.getD t 0) p.ctrl (u.getD t [])
      rw [hd t ht, r1, r2]
      exact combined_hamiltonian p.ctrl p'.ctrl A b hc _ r
    · refine Finset.sum_congr rfl fun j _ => ?_
      rw [hz j ⟨t, ht⟩ _ rfl]

/-- The final operators of all traces. -/
theorem Combined.finals {p p' : SPar n m} {A : Fin p'.ctrl.length → Fin p.ctrl.length → ℝ} {b : Fin p.ctrl.length → ℝ} {τ τ' : List ℝ}
    {M M' : MC n m} (h : Combined p p' A b τ τ' M M') (u v : Solver.Pulse) (hu : Affine A b (p.xTimes τ).length u v) :
    noisyFinal p' M'.hNoise τ' v 0 = noisyFinal p M.hNoise τ u 0 ∧
    ∀ i : Nat, i < M.nTraces → noisyFinal p' M'.hNoise τ' v (traceOf _ _ M'.samples i) = noisyFinal p M.hNoise τ u (traceOf _ _ M.samples i) := by
  rw [h.ops]
  refine ⟨?_, fun k hk => ?_⟩
  · exact noisyFinal_combined p p' A b τ τ' M.hNoise h.init h.ctrl h.times h.drift u v hu 0 0 fun _ _ _ _ => rfl
  · refine noisyFinal_combined p p' A b τ τ' M.hNoise h.init h.ctrl h.times h.drift u v hu _ _ fun j t i hi => ?_
    show M'.samples.val j k i = M.samples.val j k t
    rw [hi]
    exact h.samples j k t j.2 hk t.2

/-! ## The property -/

/-- **C172** The noise infidelity of the amplitudes is that of the parameters with the combined Hamiltonians. -/
theorem c172_infidelity (p p' : SPar n n) (A : Fin p'.ctrl.length → Fin p.ctrl.length → ℝ) (b : Fin p.ctrl.length → ℝ) (τ τ' : List ℝ)
    (M M' : MC n n) (h : Combined p p' A b τ τ' M M') (cl : Closest) (cs : Option (List n)) (mcu nse : Bool)
    (T : Matrix (CompIdx cs) (CompIdx cs) ℂ) (y u : Solver.Pulse) (hy : ampsOf p.cfg τ y = some u) (z v : Solver.Pulse)
    (hz : ampsOf p'.cfg τ' z = some v) (hu : Affine A b (p.xTimes τ).length u v) (y' x y'' x' : Solver.Pulse) :
    mcCosts cl cs T mcu nse M' (p'.xTimes τ') y'' x' v = mcCosts cl cs T mcu nse M (p.xTimes τ) y' x u := by
  have g := h.given
  have g' := h.given'
  have q := h.pulse'
  rw [mcCosts_value p τ h.pulse.valid h.pulse.stable h.pulse.method h.pulse.expm h.pulse.times M g.base h.procs g.amp g.ops g.traces g.times cl
    cs T mcu nse y u y' x hy, mcCosts_value p' τ' q.valid q.stable q.method q.expm q.times M' g'.base h.procs' g'.amp g'.ops g'.traces
    g'.times cl cs T mcu nse z v y'' x' hz]
  obtain ⟨w, hk⟩ := h.finals u v hu
  refine trace_means h.traces _ _ fun k hk' => ?_
  unfold traceInfidelity
  rw [w, hk k hk']

/-- **C172** The same for the leakage. -/
theorem c172_leakage (p p' : SPar n n) (A : Fin p'.ctrl.length → Fin p.ctrl.length → ℝ) (b : Fin p.ctrl.length → ℝ) (τ τ' : List ℝ)
    (M M' : MC n n) (h : Combined p p' A b τ τ' M M') (l : List n) (y u : Solver.Pulse) (hy : ampsOf p.cfg τ y = some u) (z v : Solver.Pulse)
    (hz : ampsOf p'.cfg τ' z = some v) (hu : Affine A b (p.xTimes τ).length u v) (y' x y'' x' : Solver.Pulse) :
    mcLeakCosts l M' (p'.xTimes τ') y'' x' v = mcLeakCosts l M (p.xTimes τ) y' x u := by
  have g := h.given
  have g' := h.given'
  rw [mcLeakCosts_value p τ _ h.pulse l M g.base rfl h.procs g.amp g.ops g.traces g.times y u y' x hy,
    mcLeakCosts_value p' τ' _ h.pulse' l M' g'.base rfl h.procs' g'.amp g'.ops g'.traces g'.times z v y'' x' hz]
  obtain ⟨-, hk⟩ := h.finals u v hu
  refine trace_means h.traces _ _ fun k hk' => ?_
  unfold traceLeakage
  rw [hk k hk']

/-- **C172** The same for the transfer of a state. -/
theorem c172_states (p p' : SPar n (Fin 1)) (A : Fin p'.ctrl.length → Fin p.ctrl.length → ℝ) (b : Fin p.ctrl.length → ℝ) (τ τ' : List ℝ)
    (M M' : MC n (Fin 1)) (h : Combined p p' A b τ τ' M M') (cs : Option (List n)) (T : Matrix (Fin 1) (CompIdx cs) ℂ) (rescale nse : Bool)
    (y u : Solver.Pulse) (hy : ampsOf p.cfg τ y = some u) (z v : Solver.Pulse)
    (hz : ampsOf p'.cfg τ' z = some v) (hu : Affine A b (p.xTimes τ).length u v) (y' x y'' x' : Solver.Pulse) :
    mcStateCosts cs T rescale nse M' (p'.xTimes τ') y'' x' v = mcStateCosts cs T rescale nse M (p.xTimes τ) y' x u := by
  have g := h.given
  have g' := h.given'
  rw [mcStateCosts_value p τ _ h.pulse cs T rescale nse M g.base rfl h.procs g.amp g.ops g.traces g.times y u y' x hy,
    mcStateCosts_value p' τ' _ h.pulse' cs T rescale nse M' g'.base rfl h.procs' g'.amp g'.ops g'.traces g'.times z v y'' x' hz]
  obtain ⟨w, hk⟩ := h.finals u v hu
  refine trace_means h.traces _ _ fun k hk' => ?_
  unfold traceStateInfidelity
  rw [w, hk k hk']

/-! ### Gradients -/

theorem affine_rows {N N' c c' : Nat} (hN : N' = N) (A : Fin c' → Fin c → ℝ) (b : Fin c → ℝ) (V : Fin N' → Fin c' → ℝ) :
    Affine A b N (rowsOf fun t : Fin N => mixRow A b (V (Fin.cast hN.symm t))) (rowsOf V) := by
  subst hN
  intro t ht
  refine ⟨V ⟨t, ht⟩, ?_, ?_⟩
  · rw [List.getD_eq_getElem _ _ (by simpa [rowsOf] using ht)]
    simp [rowsOf]
  · rw [List.getD_eq_getElem _ _ (by simpa [rowsOf] using ht)]
    simp [rowsOf]

/-- The chain rule for the affine function. -/
theorem grad_affine {N N' c c' : Nat} (hN : N' = N) (A : Fin c' → Fin c → ℝ) (b : Fin c → ℝ) {f : (Fin N → Fin c → ℝ) → ℝ}
    {f' : (Fin N' → Fin c' → ℝ) → ℝ} (hff : ∀ V, f' V = f fun t => mixRow A b (V (Fin.cast hN.symm t))) {V : Fin N' → Fin c' → ℝ}
    {L : (Fin N → Fin c → ℝ) →L[ℝ] ℝ} {L' : (Fin N' → Fin c' → ℝ) →L[ℝ] ℝ} {g : Fin N → Fin c → ℝ} {g' : Fin N' → Fin c' → ℝ}
    (h : HasFDerivAt f L fun t => mixRow A b (V (Fin.cast hN.symm t))) (h' : HasFDerivAt f' L' V)
    (hg : ∀ W, L W = ∑ t, ∑ l, g t l * W t l) (hg' : ∀ W, L' W = ∑ t, ∑ k, g' t k * W t k) (t : Fin N) (k : Fin c') :
    g' (Fin.cast hN.symm t) k = ∑ l, A k l * g t l := by
  subst hN
  let R : (Fin N' → Fin c' → ℝ) →L[ℝ] (Fin N' → Fin c → ℝ) :=
    ContinuousLinearMap.pi fun t => ContinuousLinearMap.pi fun l => ∑ k, A k l •
      (ContinuousLinearMap.proj (R := ℝ) (φ := fun _ : Fin c' => ℝ) k).comp (ContinuousLinearMap.proj (R := ℝ) (φ := fun _ : Fin N' => Fin c' → ℝ) t)
  have hR : ∀ W t l, R W t l = ∑ k, A k l * W t k := by
    intro W t l
    show (∑ k, A k l • (ContinuousLinearMap.proj (R := ℝ) (φ := fun _ : Fin c' => ℝ) k).comp
      (ContinuousLinearMap.proj (R := ℝ) (φ := fun _ : Fin N' => Fin c' → ℝ) t)) W = _
    rw [_root_.sum_apply]
    rfl
  have haff : (fun (W : Fin N' → Fin c' → ℝ) (t : Fin N') => mixRow A b (W t)) = fun W => R W + fun _ => b := by
    funext W t l
    rw [Pi.add_apply, Pi.add_apply, hR]
    unfold mixRow
    congr 1
    exact Finset.sum_congr rfl fun k _ => mul_comm _ _
  have hd : HasFDerivAt (fun (W : Fin N' → Fin c' → ℝ) (t : Fin N') => mixRow A b (W t)) R V := by
    rw [haff]
    exact R.hasFDerivAt.add_const _
  have e : f' = f ∘ fun W t => mixRow A b (W t) := funext hff
  have k2 : HasFDerivAt f' (L.comp R) V := by
    rw [e]
    exact HasFDerivAt.comp V h hd
  have := grad_unique (g' := fun t k => ∑ l, A k l * g t l) h' k2 hg' fun W => by
    show L (R W) = _
    rw [hg]
    refine Finset.sum_congr rfl fun t _ => ?_
    simp only [hR, Finset.mul_sum, Finset.sum_mul]
    rw [Finset.sum_comm]
    refine Finset.sum_congr rfl fun k _ => Finset.sum_congr rfl fun l _ => ?_
    ring
  exact congrFun (congrFun this t) k

/-- The same systems with the amplitudes as optimisation parameters. -/
theorem Combined.plain {p p' : SPar n m} {A : Fin p'.ctrl.length → Fin p.ctrl.length → ℝ} {b : Fin p.ctrl.length → ℝ} {τ τ' : List ℝ}
    {M M' : MC n m} (h : Combined p p' A b τ τ' M M') :
    Combined (plainPar p) (plainPar p') A b (p.xTimes τ) (p'.xTimes τ') (plainMC p M) (plainMC p' M') :=
  ⟨plain_pulse h.pulse, plain_pulse h.pulse', ⟨rfl, h.given.amp, h.given.ops, h.given.traces, h.given.times⟩,
    ⟨rfl, h.given'.amp, h.given'.ops, h.given'.traces, h.given'.times⟩, plain_procs h.given.base h.procs, plain_procs h.given'.base h.procs', h.init,
    h.ctrl, h.ops, h.traces, h.times, h.drift, h.samples⟩

/-- **C172** The gradient by the parameters of a time step is the transposed matrix of the affine function applied to the gradient by its
amplitudes. -/
theorem c172_gradient (p p' : SPar n n) (A : Fin p'.ctrl.length → Fin p.ctrl.length → ℝ) (b : Fin p.ctrl.length → ℝ) (τ τ' : List ℝ)
    (M M' : MC n n) (h : Combined p p' A b τ τ' M M') (happ : p.approx = .none) (happ' : p'.approx = .none) (hF : p.L.FrechetOk)
    (hF' : p'.L.FrechetOk) (hp : M.procs = .int 1) (hp' : M'.procs = .int 1) (hK : 0 < M.nTraces) (cl : Closest) (cs : Option (List n))
    (hcs : cs ≠ some []) (mcu nse : Bool) (hm : mcu = false ∨ cs = none) (T : Matrix (CompIdx cs) (CompIdx cs) ℂ) (y' x y'' x' : Solver.Pulse)
    (V : Fin (p'.xTimes τ').length → Fin p'.ctrl.length → ℝ) :
    ∃ (g : Fin (p.xTimes τ).length → Fin p.ctrl.length → ℝ) (g' : Fin (p'.xTimes τ').length → Fin p'.ctrl.length → ℝ),
      mcGrad cl cs T mcu nse M (p.xTimes τ) y' x (rowsOf fun t => mixRow A b (V (Fin.cast (by rw [h.times]) t))) = .ok (rowsOf g) ∧
      mcGrad cl cs T mcu nse M' (p'.xTimes τ') y'' x' (rowsOf V) = .ok (rowsOf g') ∧
      ∀ (t : Fin (p.xTimes τ).length) k, g' (Fin.cast (by rw [h.times]) t) k = ∑ l, A k l * g t l := by
  have hl : (p'.xTimes τ').length = (p.xTimes τ).length := congrArg List.length h.times
  have hr := fun W => (⟨rowsOf W, plain_amps p τ h.pulse.times W⟩ : ∃ y, ampsOf (plainPar p).cfg (p.xTimes τ) y = some (rowsOf W))
  have hr' := fun W => (⟨rowsOf W, plain_amps p' τ' h.pulse'.times W⟩ : ∃ y, ampsOf (plainPar p').cfg (p'.xTimes τ') y = some (rowsOf W))
  have k := h.plain
  have g := k.given
  have g' := k.given'
  have q := k.pulse'
  obtain ⟨a, b1, b2, L, b3, b4⟩ := c93_noise_total (plainPar p) (p.xTimes τ) k.pulse.valid k.pulse.stable k.pulse.method happ k.pulse.expm hF
    k.pulse.times hr (plainMC p M) ⟨g.base, hp, g.amp, g.ops, g.traces, g.times, hK⟩ cl cs hcs mcu nse hm T y' x
    (fun t => mixRow A b (V (Fin.cast hl.symm t)))
  obtain ⟨r, d1, d2, L', d3, d4⟩ := c93_noise_total (plainPar p') (p'.xTimes τ') q.valid q.stable q.method happ' q.expm hF' q.times
    hr' (plainMC p' M') ⟨g'.base, hp', g'.amp, g'.ops, g'.traces, g'.times, by rw [k.traces]; exact hK⟩ cl cs hcs mcu nse hm T y'' x' V
  refine ⟨a, r, (plain_mcGrad p M h.given.base happ cl cs T mcu nse _ y' x _).symm.trans b1,
    (plain_mcGrad p' M' h.given'.base happ' cl cs T mcu nse _ y'' x' (rowsOf V)).symm.trans d1, grad_affine hl A b (fun W => ?_) b3 d3 b4 d4⟩
  obtain ⟨y, hy⟩ := hr fun t => mixRow A b (W (Fin.cast hl.symm t))
  obtain ⟨z, hz⟩ := hr' W
  have := c172_infidelity (plainPar p) (plainPar p') A b (p.xTimes τ) (p'.xTimes τ') (plainMC p M) (plainMC p' M') k cl cs mcu nse T y _ hy z
    (rowsOf W) hz (affine_rows hl A b W) y' x y'' x'
  exact Except.ok.inj ((d2 W).symm.trans (this.trans (b2 _)))

/-! ## Cases -/

namespace Ex172

/-- One control which moves both controls of the qubit of C161, and the first of them in the drift. -/
noncomputable def one (L : Lapack (Fin 2)) : SPar (Fin 2) (Fin 2) :=
  ⟨L, .frechet, true, true, .none, 1, [!![1, 3; 3, -1], !![1, 3; 3, -1], !![1, 3; 3, -1]], [!![0, 1 - 2 * Complex.I; 1 + 2 * Complex.I, 0]], idTf, id,
    idAmp⟩

noncomputable def mc (L : Lapack (Fin 2)) : MC (Fin 2) (Fin 2) := { Ex161.mc L with base := (one L).cfg }

/-- The amplitudes `v + 3` and `2 v`. -/
noncomputable def mat : Fin 1 → Fin 2 → ℝ := fun _ => ![1, 2]

noncomputable def off : Fin 2 → ℝ := ![3, 0]

theorem pulse {L : Lapack (Fin 2)} (hE : L.ExpmOk) : NoisyPulse (one L) [1, 2, 3] (mc L).hNoise := by
  refine ⟨⟨by simp [one], rfl, by simp [one]⟩, Or.inl ⟨rfl, rfl⟩, rfl, hE, by simp [one], ?_, ?_, Ex161.herm⟩
  · intro H hH
    simp only [one, List.mem_cons, List.not_mem_nil, or_false, or_self] at hH
    subst hH
    ext i j; fin_cases i <;> fin_cases j <;> simp
  · intro H hH
    simp only [one, List.mem_cons, List.not_mem_nil, or_false] at hH
    subst hH
    ext i j; fin_cases i <;> fin_cases j <;> simp [sub_eq_add_neg]

theorem combined {L : Lapack (Fin 2)} (hE : L.ExpmOk) :
    Combined (qubitPar L .none true) (one L) mat off [1, 2, 3] [1, 2, 3] (Ex161.mc L) (mc L) where
  pulse := Ex161.pulse hE
  pulse' := pulse hE
  given := Ex161.given L
  given' := ⟨rfl, rfl, rfl, rfl, rfl⟩
  procs := Or.inl rfl
  procs' := Or.inl rfl
  init := rfl
  ctrl := by
    intro k
    have hk : k = (0 : Fin 1) := Subsingleton.elim (α := Fin 1) _ _
    subst hk
    show !![0, 1 - 2 * Complex.I; 1 + 2 * Complex.I, 0] =
      ∑ l : Fin 2, ((![1, 2] l : ℝ) : ℂ) • [!![0, 1; 1, 0], !![0, -Complex.I; Complex.I, 0]].get l
    rw [Fin.sum_univ_two]
    ext i j; fin_cases i <;> fin_cases j <;> simp [sub_eq_add_neg]
  ops := rfl
  traces := rfl
  times := rfl
  drift := by
    intro t ht
    have ht' : t < 3 := ht
    have e : ∑ l : Fin 2, ((![3, 0] l : ℝ) : ℂ) • [!![0, 1; 1, 0], !![0, -Complex.I; Complex.I, 0]].get l =
        (!![0, 3; 3, 0] : Matrix (Fin 2) (Fin 2) ℂ) := by
      rw [Fin.sum_univ_two]
      ext i j; fin_cases i <;> fin_cases j <;> simp
    have e2 : (!![1, 3; 3, -1] : Matrix (Fin 2) (Fin 2) ℂ) = !![1, 0; 0, -1] + !![0, 3; 3, 0] := by
      ext i j; fin_cases i <;> fin_cases j <;> simp
    rw [← e] at e2
    interval_cases t <;> exact e2
  samples := fun _ _ _ _ _ _ => rfl

theorem amps (L : Lapack (Fin 2)) : ampsOf (one L).cfg [1, 2, 3] [[1], [2], [4]] = some [[1], [2], [4]] := by
  obtain ⟨r, h1, h2, h3, h4⟩ := idAmp_ok [[1], [2], [4]] 1 (by simp) (by simp)
  have := ampsOf_some (one L).cfg [1, 2, 3] [[1], [2], [4]] _ r rfl h1 h2 (by rw [h4]; rfl) h3
  rw [this, h4]

theorem affine : Affine mat off 3 [[4, 2], [5, 4], [7, 8]] [[1], [2], [4]] := by
  have k : ∀ s : ℝ, List.ofFn (mixRow mat off fun _ : Fin 1 => s) = [s + 3, s * 2] := by
    intro s
    simp [mixRow, mat, off]
  intro t ht
  interval_cases t
  · exact ⟨fun _ => 1, by simp, by rw [k]; norm_num⟩
  · exact ⟨fun _ => 2, by simp, by rw [k]; norm_num⟩
  · exact ⟨fun _ => 4, by simp, by rw [k]; norm_num⟩

/-- `c172_infidelity`, `c172_leakage` and `c172_gradient` apply. -/
example : ∃ L : Lapack (Fin 2), ∀ (cl : Closest) (T : Matrix (Fin 2) (Fin 2) ℂ) (nse : Bool) (V : Fin 3 → Fin 1 → ℝ),
    mcCosts (n := Fin 2) cl none T true nse (mc L) [1, 2, 3] [] [] [[1], [2], [4]] =
      mcCosts (n := Fin 2) cl none T true nse (Ex161.mc L) [1, 2, 3] [] [] [[4, 2], [5, 4], [7, 8]] ∧
    mcLeakCosts [0] (mc L) [1, 2, 3] [] [] [[1], [2], [4]] = mcLeakCosts [0] (Ex161.mc L) [1, 2, 3] [] [] [[4, 2], [5, 4], [7, 8]] ∧
    ∃ (g : Fin 3 → Fin 2 → ℝ) (g' : Fin 3 → Fin 1 → ℝ),
      mcGrad (n := Fin 2) cl none T true nse (Ex161.mc L) [1, 2, 3] [] [] (rowsOf fun t => mixRow mat off (V t)) = .ok (rowsOf g) ∧
      mcGrad (n := Fin 2) cl none T true nse (mc L) [1, 2, 3] [] [] (rowsOf V) = .ok (rowsOf g') ∧
      ∀ t, g' t 0 = g t 0 + 2 * g t 1 := by
  obtain ⟨L, -, -, hE, hF⟩ := lapack_exists (Fin 2)
  refine ⟨L, fun cl T nse V => ⟨?_, ?_, ?_⟩⟩
  · exact c172_infidelity (qubitPar L .none true) (one L) mat off [1, 2, 3] [1, 2, 3] (Ex161.mc L) (mc L) (combined hE) cl none true nse T _ _
      (qubitPar_amps L _ _ [[4, 2], [5, 4], [7, 8]] rfl (by simp)) _ _ (amps L) affine [] [] [] []
  · exact c172_leakage (qubitPar L .none true) (one L) mat off [1, 2, 3] [1, 2, 3] (Ex161.mc L) (mc L) (combined hE) [0] _ _
      (qubitPar_amps L _ _ [[4, 2], [5, 4], [7, 8]] rfl (by simp)) _ _ (amps L) affine [] [] [] []
  · obtain ⟨g, g', h1, h2, h3⟩ := c172_gradient (qubitPar L .none true) (one L) mat off [1, 2, 3] [1, 2, 3] (Ex161.mc L) (mc L) (combined hE) rfl rfl
      hF hF rfl rfl (by show 0 < 4; norm_num) cl none (by simp) true nse (Or.inr rfl) T [] [] [] [] V
    refine ⟨g, g', h1, h2, fun t => ?_⟩
    have := h3 t (0 : Fin 1)
    refine this.trans ((Fin.sum_univ_two _).trans ?_)
    simp [mat]

/-- A state with the one control. -/
noncomputable def oneState (L : Lapack (Fin 2)) : SPar (Fin 2) (Fin 1) :=
  ⟨L, .frechet, true, true, .none, !![1; 0], (one L).drift, (one L).ctrl, idTf, id, idAmp⟩

noncomputable def mcState (L : Lapack (Fin 2)) : MC (Fin 2) (Fin 1) := { Ex161.mcState L with base := (oneState L).cfg }

theorem combinedState {L : Lapack (Fin 2)} (hE : L.ExpmOk) :
    Combined (Ex159.statePar L) (oneState L) mat off [1, 2, 3] [1, 2, 3] (Ex161.mcState L) (mcState L) where
  pulse := Ex159.state hE
  pulse' :=
    let h := pulse hE
    ⟨⟨h.valid.1, h.valid.2.1, h.valid.2.2⟩, h.stable, h.method, h.expm, h.times, h.drift, h.ctrl, (Ex159.state hE).noise⟩
  given := Ex161.givenState L
  given' := ⟨rfl, rfl, rfl, rfl, rfl⟩
  procs := Or.inl rfl
  procs' := Or.inl rfl
  init := rfl
  ctrl := (combined hE).ctrl
  ops := rfl
  traces := rfl
  times := rfl
  drift := (combined hE).drift
  samples := fun _ _ _ _ _ _ => rfl

/-- `c172_states` applies. -/
example : ∃ L : Lapack (Fin 2), ∀ (B : Matrix (Fin 1) (Fin 2) ℂ) (nse : Bool),
    mcStateCosts (n := Fin 2) none B true nse (mcState L) [1, 2, 3] [] [] [[1], [2], [4]] =
      mcStateCosts (n := Fin 2) none B true nse (Ex161.mcState L) [1, 2, 3] [] [] [[4, 2], [5, 4], [7, 8]] := by
  obtain ⟨L, -, -, hE, -⟩ := lapack_exists (Fin 2)
  refine ⟨L, fun B nse => ?_⟩
  exact c172_states (Ex159.statePar L) (oneState L) mat off [1, 2, 3] [1, 2, 3] (Ex161.mcState L) (mcState L) (combinedState hE) none B true nse
    [[4, 2], [5, 4], [7, 8]] _ (qubitPar_amps L .none true [[4, 2], [5, 4], [7, 8]] rfl (by simp)) [[1], [2], [4]] [[1], [2], [4]]
    ((show _ = _ from rfl).trans (amps L)) affine [] [] [] []

end Ex172

end Verif.Sim
