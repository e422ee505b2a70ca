import Verif.Sim.NoiseDescriptions

/-!
# C162: noisy pulses played backwards

The noise samples of `SchroedingerSMonteCarlo` (solver_algorithms.py:1015-1410) belong to time steps.  If a pulse is played
backwards with the samples in opposite order and the transposed Hamiltonians, the noise costs (cost_functions.py) are the same; for
noise that is constant in each trace the samples remain as they are.
-/

namespace Verif.Sim
open Verif Verif.Transfer Verif.Operator Verif.Solver Verif.Cost Matrix

variable {n m k : Type} [Fintype n] [DecidableEq n]

/-! ## Specification -/

/-- `M'` simulates the system of `M` backwards: transposed Hamiltonians, drifts, durations and noise samples in opposite order. -/
structure Backwards (p : SPar n m) (init : Matrix n k ℂ) (τ : List ℝ) (M : MC n m) (M' : MC n k) : Prop where
  times : p.xTimes τ.reverse = (p.xTimes τ).reverse
  pulse : NoisyPulse p τ M.hNoise
  given : Given M p τ
  given' : Given M' (p.mirrored init) τ.reverse
  procs : M.ProcsOk
  procs' : M'.ProcsOk
  ops : M'.hNoise = M.hNoise.map fun H => Hᵀ
  traces : M'.nTraces = M.nTraces
  samples : ∀ j k t, j < M.hNoise.length → k < M.nTraces → t < (p.xTimes τ).length →
    M'.samples.val j k t = M.samples.val j k ((p.xTimes τ).length - 1 - t)

/-- The noise is constant in each trace. -/
def Static (s : Arr3) : Prop := ∀ j k t t', s.val j k t = s.val j k t'

/-! ## Lemmas -/

theorem foldl_mirror (l : List (Matrix n n ℂ)) :
    (l.map fun P => Pᵀ).reverse.foldl (fun F P => P * F) 1 = (l.foldl (fun F P => P * F) (1 : Matrix n n ℂ))ᵀ := by
  induction l with
  | nil => simp
  | cons P l ih =>
    have := foldl_mul_init l 1 P
    rw [Matrix.one_mul] at this
    rw [List.map_cons, List.reverse_cons, List.foldl_append, ih]
    show Pᵀ * _ = (l.foldl (fun F P => P * F) (P * 1))ᵀ
    rw [Matrix.mul_one, this, Matrix.transpose_mul]

theorem noisyFinal_init (p : SPar n m) (hN : List (Matrix n n ℂ)) (τ : List ℝ) (u : Solver.Pulse)
    (z : Fin hN.length → Fin (p.xTimes τ).length → ℝ) :
    noisyFinal p hN τ u z = (List.ofFn (noisyStep p hN τ u z)).foldl (fun F P => P * F) 1 * p.init := by
  rw [← foldl_mul_init, Matrix.one_mul]
  rfl

/-- The evolution of the system played backwards. -/
theorem noisyFinal_mirrored (p : SPar n m) (X : Matrix n k ℂ) (τ : List ℝ) (hv : p.Valid τ) (hτ : p.xTimes τ.reverse = (p.xTimes τ).reverse)
    (hN hN' : List (Matrix n n ℂ)) (hH : hN' = hN.map fun H => Hᵀ) (u : Solver.Pulse) (hu : u.length = (p.xTimes τ).length)
    (z : Fin hN.length → Fin (p.xTimes τ).length → ℝ) (z' : Fin hN'.length → Fin ((p.mirrored X).xTimes τ.reverse).length → ℝ)
    (hz : ∀ (j : Fin hN.length) (j' : Fin hN'.length) (t : Fin (p.xTimes τ).length) (t' : Fin ((p.mirrored X).xTimes τ.reverse).length),
      (j : Nat) = j' → (t : Nat) = (p.xTimes τ).length - 1 - t' → z' j' t' = z j t) :
    ∃ W, noisyFinal p hN τ u z = W * p.init ∧ noisyFinal (p.mirrored X) hN' τ.reverse u.reverse z' = Wᵀ * X := by
  refine ⟨_, noisyFinal_init p hN τ u z, ?_⟩
  rw [noisyFinal_init, ← foldl_mirror]
  show _ * X = _
  congr 2
  have hx : (p.mirrored X).xTimes τ.reverse = (p.xTimes τ).reverse := hτ
  have hl : ((p.mirrored X).xTimes τ.reverse).length = (p.xTimes τ).length := by rw [hx, List.length_reverse]
  refine List.ext_getElem (by simpa using hl) fun i h1 h2 => ?_
  have i1 : i < ((p.mirrored X).xTimes τ.reverse).length := by simpa using h1
  have i2 : i < (p.xTimes τ).length := by rw [← hl]; exact i1
  have i3 : (p.xTimes τ).length - 1 - i < (p.xTimes τ).length := by omega
  have hd : p.drift.length = (p.xTimes τ).length := hv.2.1
  rw [List.getElem_reverse, List.getElem_map, List.getElem_ofFn, List.getElem_ofFn]
  have e : (⟨(List.map (fun P => Pᵀ) (List.ofFn (noisyStep p hN τ u z))).length - 1 - i, by simpa using i3⟩ : Fin (p.xTimes τ).length) =
      ⟨(p.xTimes τ).length - 1 - i, i3⟩ := by
    apply Fin.ext
    simp
  refine Eq.trans ?_ (congrArg (fun t => (noisyStep p hN τ u z t)ᵀ) e.symm)
  unfold noisyStep
  rw [← Matrix.exp_transpose]
  congr 1
  rw [Matrix.transpose_smul, Matrix.transpose_smul, Matrix.transpose_add]
  congr 2
  · show (((p.mirrored X).xTimes τ.reverse)[i] : ℝ) = _
    simp only [hx, List.getElem_reverse]
    rfl
  · congr 1
    · show hamiltonian (((p.drift.map fun H => Hᵀ).reverse).getD i 0) (p.ctrl.map fun H => Hᵀ) (u.reverse.getD i []) = _
      rw [List.getD_eq_getElem _ _ (by simp [hd, i2]), List.getD_eq_getElem _ _ (by simp [hu, i2]), List.getElem_reverse, List.getElem_map,
        List.getElem_reverse, hamiltonian_transpose]
      simp only [List.length_map, hd, hu]
      rw [List.getD_eq_getElem _ _ (by rw [hd]; exact i3), List.getD_eq_getElem _ _ (by rw [hu]; exact i3)]
    · subst hH
      rw [Matrix.transpose_sum]
      refine Fintype.sum_equiv (finCongr (by simp)) _ _ fun j => ?_
      rw [hz ⟨j, by simpa using j.2⟩ j ⟨(p.xTimes τ).length - 1 - i, i3⟩ ⟨i, i1⟩ rfl rfl, Matrix.transpose_smul]
      simp
      rfl

omit [Fintype n] [DecidableEq n] in
theorem stable_ctrl {p : SPar n m} (hc : p.ctrl ≠ []) (h : Stable p.cfg) (X : Matrix n k ℂ) : Stable (p.mirrored X).cfg := by
  rcases h with h1 | ⟨h1, h2, -⟩ | h1
  · exact Or.inl h1
  · refine Or.inr (Or.inl ⟨h1, h2, fun times u t Ds hD => ?_⟩)
    have : (List.replicate times.length ((p.ctrl.map fun H => Hᵀ).map fun H => (-Complex.I) • H))[t]? = some Ds := hD
    rw [List.getElem?_replicate] at this
    split at this
    · simp only [Option.some.injEq] at this
      rw [← this]
      simpa using hc
    · cases this
  · exact Or.inr (Or.inr h1)

theorem Backwards.pulse' {p : SPar n m} {X : Matrix n k ℂ} {τ : List ℝ} {M : MC n m} {M' : MC n k} (h : Backwards p X τ M M') :
    NoisyPulse (p.mirrored X) τ.reverse M'.hNoise := by
  have hx : (p.mirrored X).xTimes τ.reverse = (p.xTimes τ).reverse := h.times
  refine ⟨⟨by simpa [SPar.mirrored] using h.pulse.valid.1, ?_, h.pulse.valid.2.2⟩, stable_ctrl h.pulse.valid.1 h.pulse.stable X,
    h.pulse.method, h.pulse.expm, ?_, ?_, ?_, ?_⟩
  · rw [hx, List.length_reverse]
    simpa [SPar.mirrored] using h.pulse.valid.2.1
  · rw [hx]
    simpa using h.pulse.times
  · intro H hH
    obtain ⟨K, hK, rfl⟩ := List.mem_map.mp (List.mem_reverse.mp hH)
    exact (h.pulse.drift K hK).transpose
  · intro H hH
    obtain ⟨K, hK, rfl⟩ := List.mem_map.mp hH
    exact (h.pulse.ctrl K hK).transpose
  · intro H hH
    rw [h.ops] at hH
    obtain ⟨K, hK, rfl⟩ := List.mem_map.mp hH
    exact (h.pulse.noise K hK).transpose

/-- The final operators of all traces. -/
theorem Backwards.finals {p : SPar n m} {X : Matrix n k ℂ} {τ : List ℝ} {M : MC n m} {M' : MC n k} (h : Backwards p X τ M M')
    (u : Solver.Pulse) (hu : u.length = (p.xTimes τ).length) :
    (∃ W, noisyFinal p M.hNoise τ u 0 = W * p.init ∧ noisyFinal (p.mirrored X) M'.hNoise τ.reverse u.reverse 0 = Wᵀ * X) ∧
    ∀ i : Nat, i < M.nTraces → ∃ W, noisyFinal p M.hNoise τ u (traceOf _ _ M.samples i) = W * p.init ∧
      noisyFinal (p.mirrored X) M'.hNoise τ.reverse u.reverse (traceOf _ _ M'.samples i) = Wᵀ * X := by
  refine ⟨?_, fun i hi => ?_⟩
  · exact noisyFinal_mirrored p X τ h.pulse.valid h.times M.hNoise M'.hNoise h.ops u hu 0 0 fun _ _ _ _ _ _ => rfl
  · refine noisyFinal_mirrored p X τ h.pulse.valid h.times M.hNoise M'.hNoise h.ops u hu _ _ fun j j' t t' hj ht => ?_
    have hl : ((p.mirrored X).xTimes τ.reverse).length = (p.xTimes τ).length := (congrArg List.length h.times).trans (List.length_reverse)
    show M'.samples.val j' i t' = M.samples.val j i t
    rw [← hj, ht]
    exact h.samples j i t' j.2 hi (lt_of_lt_of_eq t'.2 hl)

theorem trace_means {K K' : Nat} (hK : K' = K) (f : Fin K → ℝ) (f' : Fin K' → ℝ) (hf : ∀ (k : Fin K') (hk : (k : Nat) < K), f' k = f ⟨k, hk⟩) :
    (Except.ok ((∑ k : Fin K', f' k) / K') : Except PyErr ℝ) = .ok ((∑ k : Fin K, f k) / K) := by
  subst hK
  rw [Finset.sum_congr rfl fun k _ => hf k k.2]

/-! ## The property -/

/-- **C162** The noise infidelity of the pulse played backwards, with respect to the transposed operation or the evolution without
noise, is the same. -/
theorem c162_infidelity (p : SPar n n) (hi : p.init = 1) (τ : List ℝ) (M M' : MC n n) (h : Backwards p (1 : Matrix n n ℂ) τ M M')
    (cl : Closest) (cs : Option (List n)) (mcu nse : Bool) (hm : mcu = false ∨ cs = none) (T : Matrix (CompIdx cs) (CompIdx cs) ℂ)
    (y u : Solver.Pulse) (hu : ampsOf p.cfg τ y = some u) (z : Solver.Pulse)
    (hu' : ampsOf (p.mirrored (1 : Matrix n n ℂ)).cfg τ.reverse z = some u.reverse) (y' x y'' x' : Solver.Pulse) :
    mcCosts cl cs Tᵀ mcu nse M' ((p.mirrored (1 : Matrix n n ℂ)).xTimes τ.reverse) y'' x' u.reverse =
      mcCosts cl cs T mcu nse M (p.xTimes τ) y' x u := by
  have g := h.given
  have g' := h.given'
  have q := h.pulse'
  rw [mcCosts_value p τ h.pulse.valid h.pulse.stable h.pulse.method h.pulse.expm h.pulse.times M g.base h.procs g.amp g.ops g.traces g.times cl
    cs T mcu nse y u y' x hu, mcCosts_value _ τ.reverse q.valid q.stable q.method q.expm q.times M' g'.base h.procs' g'.amp g'.ops g'.traces
    g'.times cl cs Tᵀ mcu nse z u.reverse y'' x' hu']
  obtain ⟨⟨W, w1, w2⟩, hk⟩ := h.finals u (ampsOf_shape p.cfg τ y u hu).1
  refine trace_means h.traces _ _ fun k hk' => ?_
  obtain ⟨V, v1, v2⟩ := hk k hk'
  unfold traceInfidelity
  rw [w1, w2, v1, v2, hi, Matrix.mul_one, Matrix.mul_one, Matrix.mul_one, Matrix.mul_one]
  refine congrArg (1 - ·) ?_
  cases nse
  · exact entFid_transpose cl cs mcu hm T V
  · refine Eq.trans ?_ (entFid_transpose cl cs mcu hm _ V)
    rw [if_pos rfl, if_pos rfl, truncTo_eq cl cs mcu hm, truncTo_eq cl cs mcu hm]
    rfl

/-- **C162** The leakage is the same. -/
theorem c162_leakage (p : SPar n n) (hi : p.init = 1) (τ : List ℝ) (M M' : MC n n) (h : Backwards p (1 : Matrix n n ℂ) τ M M')
    (l : List n) (y u : Solver.Pulse) (hu : ampsOf p.cfg τ y = some u) (z : Solver.Pulse)
    (hu' : ampsOf (p.mirrored (1 : Matrix n n ℂ)).cfg τ.reverse z = some u.reverse) (y' x y'' x' : Solver.Pulse) :
    mcLeakCosts l M' ((p.mirrored (1 : Matrix n n ℂ)).xTimes τ.reverse) y'' x' u.reverse = mcLeakCosts l M (p.xTimes τ) y' x u := by
  have g := h.given
  have g' := h.given'
  rw [mcLeakCosts_value p τ _ h.pulse l M g.base rfl h.procs g.amp g.ops g.traces g.times y u y' x hu,
    mcLeakCosts_value _ τ.reverse _ h.pulse' l M' g'.base rfl h.procs' g'.amp g'.ops g'.traces g'.times z u.reverse y'' x' hu']
  obtain ⟨-, hk⟩ := h.finals u (ampsOf_shape p.cfg τ y u hu).1
  refine trace_means h.traces _ _ fun k hk' => ?_
  obtain ⟨V, v1, v2⟩ := hk k hk'
  unfold traceLeakage
  rw [v1, v2, hi, Matrix.mul_one, Matrix.mul_one, Finset.sum_comm]
  rfl

/-- **C162** State transfer: the pulse played backwards takes the conjugate of the target state to the conjugate of the initial
state exactly as well, averaged over the noise. -/
theorem c162_states (p : SPar n (Fin 1)) (τ : List ℝ) (φ : Matrix n (Fin 1) ℂ) (M M' : MC n (Fin 1)) (h : Backwards p (φ.map star) τ M M')
    (rescale : Bool) (y u : Solver.Pulse) (hu : ampsOf p.cfg τ y = some u) (z : Solver.Pulse)
    (hu' : ampsOf (p.mirrored (φ.map star)).cfg τ.reverse z = some u.reverse) (y' x y'' x' : Solver.Pulse) :
    mcStateCosts (n := n) none (asBra (.ket (p.init.map star))) rescale false M' ((p.mirrored (φ.map star)).xTimes τ.reverse) y'' x' u.reverse =
      mcStateCosts (n := n) none (asBra (.ket φ)) rescale false M (p.xTimes τ) y' x u := by
  have g := h.given
  have g' := h.given'
  rw [mcStateCosts_value p τ _ h.pulse none (asBra (.ket φ)) rescale false M g.base rfl h.procs g.amp g.ops g.traces g.times y u y' x hu,
    mcStateCosts_value _ τ.reverse _ h.pulse' none (asBra (.ket (p.init.map star))) rescale false M' g'.base rfl h.procs' g'.amp g'.ops
      g'.traces g'.times z u.reverse y'' x' hu']
  obtain ⟨-, hk⟩ := h.finals u (ampsOf_shape p.cfg τ y u hu).1
  refine trace_means h.traces _ _ fun k hk' => ?_
  obtain ⟨V, v1, v2⟩ := hk k hk'
  unfold traceStateInfidelity
  rw [v1, v2]
  have e : ((p.init.map star)ᴴ * (Vᵀ * φ.map star)) 0 0 = (φᴴ * (V * p.init)) 0 0 := by
    have : (p.init.map star)ᴴ * (Vᵀ * φ.map star) = (φᴴ * (V * p.init))ᵀ := by
      rw [Matrix.transpose_mul, Matrix.transpose_mul, ← Matrix.mul_assoc]
      congr 2
      ext i j
      simp
    rw [this]
    rfl
  exact congrArg (fun c : ℂ => 1 - ‖c‖ ^ 2) e

/-! ### Gradients -/

theorem rowsOf_reverse {N C : Nat} (U : Fin N → Fin C → ℝ) : (rowsOf U).reverse = rowsOf fun t => U t.rev := by
  refine List.ext_getElem (by simp [rowsOf]) fun i h1 h2 => ?_
  rw [List.getElem_reverse]
  simp only [rowsOf, List.getElem_ofFn, List.length_ofFn]
  congr 2
  apply Fin.ext
  simp [Fin.val_rev]
  omega

/-- Gradients of functions that agree for pulses in opposite order. -/
theorem grad_reverse {N C N' C' : Nat} (hN : N' = N) (hC : C' = C) {f : (Fin N → Fin C → ℝ) → ℝ} {f' : (Fin N' → Fin C' → ℝ) → ℝ}
    (hff : ∀ V V', rowsOf V' = (rowsOf V).reverse → f' V' = f V) {U : Fin N → Fin C → ℝ} {U' : Fin N' → Fin C' → ℝ}
    (hU : rowsOf U' = (rowsOf U).reverse) {L : (Fin N → Fin C → ℝ) →L[ℝ] ℝ} {L' : (Fin N' → Fin C' → ℝ) →L[ℝ] ℝ}
    {g : Fin N → Fin C → ℝ} {g' : Fin N' → Fin C' → ℝ} (h : HasFDerivAt f L U) (h' : HasFDerivAt f' L' U')
    (hg : ∀ V, L V = ∑ t, ∑ c, g t c * V t c) (hg' : ∀ V, L' V = ∑ t, ∑ c, g' t c * V t c) : rowsOf g' = (rowsOf g).reverse := by
  subst hN hC
  let R : (Fin N' → Fin C' → ℝ) →L[ℝ] (Fin N' → Fin C' → ℝ) :=
    ContinuousLinearMap.pi fun t => ContinuousLinearMap.proj (R := ℝ) (φ := fun _ : Fin N' => Fin C' → ℝ) t.rev
  have hR : ∀ V t, R V t = V t.rev := fun V t => rfl
  have hUR : R U' = U := by
    rw [rowsOf_reverse] at hU
    have := rowsOf_inj hU
    funext t
    rw [hR, this]
    exact congrArg U (Fin.rev_rev t)
  have e : f' = f ∘ R := by
    funext V
    refine hff (R V) V ?_
    rw [rowsOf_reverse]
    congr 1
    funext t
    rw [hR, Fin.rev_rev]
  rw [e] at h'
  have k : HasFDerivAt (f ∘ R) (L.comp R) U' := by
    refine HasFDerivAt.comp U' ?_ R.hasFDerivAt
    rw [hUR]
    exact h
  rw [rowsOf_reverse]
  refine congrArg rowsOf (grad_unique h' k hg' fun V => ?_)
  show L (R V) = _
  rw [hg]
  exact (Fintype.sum_equiv Fin.revPerm _ _ fun t => by
    simp only [Fin.revPerm_apply]
    rw [show R V t.rev = V t by rw [hR, Fin.rev_rev]]).symm

/-- **C162** The gradient of the pulse played backwards is the gradient of the pulse in opposite order. -/
theorem c162_gradient (p : SPar n n) (hi : p.init = 1) (τ : List ℝ) (M M' : MC n n) (h : Backwards p (1 : Matrix n n ℂ) τ M M')
    (happ : p.approx = .none) (hF : p.L.FrechetOk)
    (hreach : ∀ U : Fin (p.xTimes τ).length → Fin p.ctrl.length → ℝ, ∃ y, ampsOf p.cfg τ y = some (rowsOf U))
    (hreach' : ∀ U : Fin ((p.mirrored (1 : Matrix n n ℂ)).xTimes τ.reverse).length → Fin (p.mirrored (1 : Matrix n n ℂ)).ctrl.length → ℝ,
      ∃ y, ampsOf (p.mirrored (1 : Matrix n n ℂ)).cfg τ.reverse y = some (rowsOf U))
    (hp : M.procs = .int 1) (hp' : M'.procs = .int 1) (hK : 0 < M.nTraces) (cl : Closest) (cs : Option (List n)) (hcs : cs ≠ some [])
    (mcu nse : Bool) (hm : mcu = false ∨ cs = none) (T : Matrix (CompIdx cs) (CompIdx cs) ℂ) (y' x y'' x' : Solver.Pulse)
    (U : Fin (p.xTimes τ).length → Fin p.ctrl.length → ℝ) :
    ∃ g : Fin (p.xTimes τ).length → Fin p.ctrl.length → ℝ, mcGrad cl cs T mcu nse M (p.xTimes τ) y' x (rowsOf U) = .ok (rowsOf g) ∧
      mcGrad cl cs Tᵀ mcu nse M' ((p.mirrored (1 : Matrix n n ℂ)).xTimes τ.reverse) y'' x' (rowsOf U).reverse = .ok (rowsOf g).reverse := by
  have g := h.given
  have g' := h.given'
  have q := h.pulse'
  have hN : ((p.mirrored (1 : Matrix n n ℂ)).xTimes τ.reverse).length = (p.xTimes τ).length :=
    (congrArg List.length h.times).trans List.length_reverse
  have hC : (p.mirrored (1 : Matrix n n ℂ)).ctrl.length = p.ctrl.length := List.length_map _
  obtain ⟨b, b1, b2, L, b3, b4⟩ := c93_noise_total p τ h.pulse.valid h.pulse.stable h.pulse.method happ h.pulse.expm hF h.pulse.times hreach M
    ⟨g.base, hp, g.amp, g.ops, g.traces, g.times, hK⟩ cl cs hcs mcu nse hm T y' x U
  have hU : rowsOf (fun t c => U (Fin.cast hN t).rev (Fin.cast hC c)) = (rowsOf U).reverse := by
    have key : ∀ {N C N' C' : Nat} (h1 : N' = N) (h2 : C' = C) (U : Fin N → Fin C → ℝ),
        rowsOf (fun t c => U (Fin.cast h1 t).rev (Fin.cast h2 c)) = (rowsOf U).reverse := by
      intro N C N' C' h1 h2 U
      subst h1 h2
      rw [rowsOf_reverse]
      rfl
    exact key hN hC U
  obtain ⟨d, d1, d2, L', d3, d4⟩ := c93_noise_total (p.mirrored (1 : Matrix n n ℂ)) τ.reverse q.valid q.stable q.method happ q.expm hF q.times
    hreach' M' ⟨g'.base, hp', g'.amp, g'.ops, g'.traces, g'.times, by rw [h.traces]; exact hK⟩ cl cs hcs mcu nse hm Tᵀ y'' x'
    (fun t c => U (Fin.cast hN t).rev (Fin.cast hC c))
  refine ⟨b, b1, ?_⟩
  rw [← hU, d1]
  refine congrArg Except.ok (grad_reverse hN hC (fun A A' hA => ?_) hU b3 d3 b4 d4)
  obtain ⟨y, hy⟩ := hreach A
  obtain ⟨z, hz⟩ := hreach' A'
  have := c162_infidelity p hi τ M M' h cl cs mcu nse hm T y (rowsOf A) hy z (by rw [← hA]; exact hz) y' x y'' x'
  rw [b2, ← hA, d2] at this
  exact Except.ok.inj this

/-! ### Static noise -/

/-- A system with symmetric Hamiltonians whose durations and drifts read the same in both directions. -/
structure Symmetric (p : SPar n n) (τ : List ℝ) (M : MC n n) : Prop where
  init : p.init = 1
  drift : ∀ H ∈ p.drift, Hᵀ = H
  ctrl : ∀ H ∈ p.ctrl, Hᵀ = H
  noise : ∀ H ∈ M.hNoise, Hᵀ = H
  steps : τ.reverse = τ
  times : (p.xTimes τ).reverse = p.xTimes τ
  drifts : p.drift.reverse = p.drift

omit [Fintype n] in
theorem Symmetric.mirrored {p : SPar n n} {τ : List ℝ} {M : MC n n} (h : Symmetric p τ M) : p.mirrored (1 : Matrix n n ℂ) = p := by
  rw [mirrored_symmetric h.drift h.ctrl, h.drifts, ← h.init]

theorem Symmetric.backwards {p : SPar n n} {τ : List ℝ} {M : MC n n} (h : Symmetric p τ M) (hs : Static M.samples)
    (hn : NoisyPulse p τ M.hNoise) (hM : Given M p τ) (hp : M.ProcsOk) : Backwards p (1 : Matrix n n ℂ) τ M M where
  times := by rw [h.steps, h.times]
  pulse := hn
  given := hM
  given' := by rw [h.mirrored, h.steps]; exact hM
  procs := hp
  procs' := hp
  ops := by rw [List.map_congr_left (g := id) h.noise, List.map_id]
  traces := rfl
  samples := fun j k t _ _ _ => hs j k _ _

/-- **C162** Noise that is constant in each trace: if all Hamiltonians are symmetric (for Hermitian ones: real) and steps of equal
distance from both ends have the same duration and drift, the solver assigns the same noise infidelity to a pulse and to the pulse
played backwards, and the same leakage. -/
theorem c162_static (p : SPar n n) (τ : List ℝ) (M : MC n n) (h : Symmetric p τ M) (hs : Static M.samples) (hn : NoisyPulse p τ M.hNoise)
    (hM : Given M p τ) (hp : M.ProcsOk) (cl : Closest) (cs : Option (List n)) (mcu nse : Bool) (hm : mcu = false ∨ cs = none)
    (T : Matrix (CompIdx cs) (CompIdx cs) ℂ) (l : List n) (y u : Solver.Pulse) (hu : ampsOf p.cfg τ y = some u) (z : Solver.Pulse)
    (hu' : ampsOf p.cfg τ z = some u.reverse) (y' x y'' x' : Solver.Pulse) :
    mcCosts cl cs Tᵀ mcu nse M (p.xTimes τ) y'' x' u.reverse = mcCosts cl cs T mcu nse M (p.xTimes τ) y' x u ∧
    mcLeakCosts l M (p.xTimes τ) y'' x' u.reverse = mcLeakCosts l M (p.xTimes τ) y' x u := by
  have hb := h.backwards hs hn hM hp
  have h1 := c162_infidelity p h.init τ M M hb cl cs mcu nse hm T y u hu z (by rw [h.mirrored, h.steps]; exact hu') y' x y'' x'
  have h2 := c162_leakage p h.init τ M M hb l y u hu z (by rw [h.mirrored, h.steps]; exact hu') y' x y'' x'
  rw [h.mirrored, h.steps] at h1 h2
  exact ⟨h1, h2⟩

/-- **C162** ... and the gradient in opposite order. -/
theorem c162_static_gradient (p : SPar n n) (τ : List ℝ) (M : MC n n) (h : Symmetric p τ M) (hs : Static M.samples)
    (hn : NoisyPulse p τ M.hNoise) (hM : Given M p τ) (happ : p.approx = .none) (hF : p.L.FrechetOk)
    (hreach : ∀ U : Fin (p.xTimes τ).length → Fin p.ctrl.length → ℝ, ∃ y, ampsOf p.cfg τ y = some (rowsOf U)) (hp : M.procs = .int 1)
    (hK : 0 < M.nTraces) (cl : Closest) (cs : Option (List n)) (hcs : cs ≠ some []) (mcu nse : Bool) (hm : mcu = false ∨ cs = none)
    (T : Matrix (CompIdx cs) (CompIdx cs) ℂ) (y' x y'' x' : Solver.Pulse) (U : Fin (p.xTimes τ).length → Fin p.ctrl.length → ℝ) :
    ∃ g : Fin (p.xTimes τ).length → Fin p.ctrl.length → ℝ, mcGrad cl cs T mcu nse M (p.xTimes τ) y' x (rowsOf U) = .ok (rowsOf g) ∧
      mcGrad cl cs Tᵀ mcu nse M (p.xTimes τ) y'' x' (rowsOf U).reverse = .ok (rowsOf g).reverse := by
  have hb := h.backwards hs hn hM (Or.inl hp)
  have := c162_gradient p h.init τ M M hb happ hF hreach (by rw [h.mirrored, h.steps]; exact hreach) hp hp hK cl cs hcs mcu nse hm T y' x y'' x' U
  rw [h.mirrored, h.steps] at this
  exact this

/-! ## Cases -/

namespace Ex162

/-- The system of C161 backwards: its second control is an antisymmetric matrix, the samples of the last step come first. -/
noncomputable def back (L : Lapack (Fin 2)) : MC (Fin 2) (Fin 2) :=
  ⟨((qubitPar L .none true).mirrored (1 : Matrix (Fin 2) (Fin 2) ℂ)).cfg, [(!![1, 0; 0, -1])ᵀ, (!![0, 1; 1, 0])ᵀ], .int 1, none, 4,
    ⟨2, 4, 3, fun j k t => j + 2 * k + 8 * ((2 - t : ℕ) : ℝ)⟩⟩

theorem backwards {L : Lapack (Fin 2)} (hE : L.ExpmOk) : Backwards (qubitPar L .none true) 1 [1, 2, 3] (Ex161.mc L) (back L) where
  times := rfl
  pulse := Ex161.pulse hE
  given := Ex161.given L
  given' := ⟨rfl, rfl, rfl, rfl, rfl⟩
  procs := Or.inl rfl
  procs' := Or.inl rfl
  ops := rfl
  traces := rfl
  samples := fun _ _ _ _ _ _ => rfl

theorem amps (L : Lapack (Fin 2)) {m : Type} (X : Matrix (Fin 2) m ℂ) (y : Solver.Pulse) (hl : y.length = 3) (hr : ∀ row ∈ y, row.length = 2) :
    ampsOf ((qubitPar L .none true).mirrored X).cfg ([1, 2, 3] : List ℝ).reverse y = some y :=
  ampsOf_simple L .frechet true .none X _ _ _ y (by rintro rfl; simp at hl) hl hr

/-- `c162_infidelity`, `c162_leakage` and `c162_gradient` apply. -/
example : ∃ L : Lapack (Fin 2), ∀ (cl : Closest) (T : Matrix (Fin 2) (Fin 2) ℂ) (nse : Bool) (U : Fin 3 → Fin 2 → ℝ),
    mcCosts (n := Fin 2) cl none Tᵀ true nse (back L) [3, 2, 1] [] [] [[5, 6], [3, 4], [1, 2]] =
      mcCosts (n := Fin 2) cl none T true nse (Ex161.mc L) [1, 2, 3] [] [] [[1, 2], [3, 4], [5, 6]] ∧
    mcLeakCosts [0] (back L) [3, 2, 1] [] [] [[5, 6], [3, 4], [1, 2]] = mcLeakCosts [0] (Ex161.mc L) [1, 2, 3] [] [] [[1, 2], [3, 4], [5, 6]] ∧
    ∃ g : Fin 3 → Fin 2 → ℝ, mcGrad (n := Fin 2) cl none T true nse (Ex161.mc L) [1, 2, 3] [] [] (rowsOf U) = .ok (rowsOf g) ∧
      mcGrad (n := Fin 2) cl none Tᵀ true nse (back L) [3, 2, 1] [] [] (rowsOf U).reverse = .ok (rowsOf g).reverse := by
  obtain ⟨L, -, -, hE, hF⟩ := lapack_exists (Fin 2)
  refine ⟨L, fun cl T nse U => ⟨?_, ?_, ?_⟩⟩
  · exact c162_infidelity (qubitPar L .none true) rfl [1, 2, 3] (Ex161.mc L) (back L) (backwards hE) cl none true nse (Or.inr rfl) T _ _
      (qubitPar_amps L _ _ [[1, 2], [3, 4], [5, 6]] rfl (by simp)) _ (amps L 1 [[5, 6], [3, 4], [1, 2]] rfl (by simp)) [] [] [] []
  · exact c162_leakage (qubitPar L .none true) rfl [1, 2, 3] (Ex161.mc L) (back L) (backwards hE) [0] _ _
      (qubitPar_amps L _ _ [[1, 2], [3, 4], [5, 6]] rfl (by simp)) _ (amps L 1 [[5, 6], [3, 4], [1, 2]] rfl (by simp)) [] [] [] []
  · exact c162_gradient (qubitPar L .none true) rfl [1, 2, 3] (Ex161.mc L) (back L) (backwards hE) rfl hF
      (fun V => ⟨rowsOf V, qubitPar_amps L _ _ _ (rowsOf_shape V).1 (rowsOf_shape V).2⟩)
      (fun V => ⟨rowsOf V, amps L 1 _ (rowsOf_shape V).1 (rowsOf_shape V).2⟩) rfl rfl (by show 0 < 4; norm_num) cl none (by simp) true nse
      (Or.inr rfl) T [] [] [] [] U

/-- From the state `φ` backwards. -/
noncomputable def backState (L : Lapack (Fin 2)) (φ : Matrix (Fin 2) (Fin 1) ℂ) : MC (Fin 2) (Fin 1) :=
  ⟨((Ex159.statePar L).mirrored (φ.map star)).cfg, [(!![1, 0; 0, -1])ᵀ], .int 1, none, 4, ⟨1, 4, 3, fun _ k t => k + ((2 - t : ℕ) : ℝ)⟩⟩

/-- `c162_states` applies. -/
example : ∃ L : Lapack (Fin 2), ∀ (φ : Matrix (Fin 2) (Fin 1) ℂ),
    mcStateCosts (n := Fin 2) none (asBra (.ket ((!![1; 0] : Matrix (Fin 2) (Fin 1) ℂ).map star))) true false (backState L φ) [3, 2, 1] [] []
        [[5, 6], [3, 4], [1, 2]] =
      mcStateCosts (n := Fin 2) none (asBra (.ket φ)) true false (Ex161.mcState L) [1, 2, 3] [] [] [[1, 2], [3, 4], [5, 6]] := by
  obtain ⟨L, -, -, hE, hF⟩ := lapack_exists (Fin 2)
  refine ⟨L, fun φ => ?_⟩
  have h : Backwards (Ex159.statePar L) (φ.map star) [1, 2, 3] (Ex161.mcState L) (backState L φ) :=
    ⟨rfl, Ex159.state hE, Ex161.givenState L, ⟨rfl, rfl, rfl, rfl, rfl⟩, Or.inl rfl, Or.inl rfl, rfl, rfl, fun _ _ _ _ _ _ => rfl⟩
  exact c162_states (Ex159.statePar L) [1, 2, 3] φ (Ex161.mcState L) (backState L φ) h true _ _ (Ex161.ampsState L) _
    (amps L (φ.map star) [[5, 6], [3, 4], [1, 2]] rfl (by simp)) [] [] [] []

/-- A qubit with real Hamiltonians and symmetric durations. -/
noncomputable def realPar (L : Lapack (Fin 2)) : SPar (Fin 2) (Fin 2) :=
  ⟨L, .frechet, true, true, .none, 1, [!![1, 0; 0, -1], 0, !![1, 0; 0, -1]], [!![0, 1; 1, 0]], idTf, id, idAmp⟩

/-- Four traces of static noise. -/
noncomputable def realMc (L : Lapack (Fin 2)) : MC (Fin 2) (Fin 2) :=
  ⟨(realPar L).cfg, [!![1, 0; 0, -1], !![0, 1; 1, 0]], .int 1, none, 4, ⟨2, 4, 3, fun j k _ => j + 2 * k⟩⟩

theorem realAmps (L : Lapack (Fin 2)) (y : Solver.Pulse) (hl : y.length = 3) (hr : ∀ row ∈ y, row.length = 1) :
    ampsOf (realPar L).cfg [1, 2, 1] y = some y :=
  ampsOf_simple L .frechet true .none 1 _ _ _ y (by rintro rfl; simp at hl) hl hr

/-- `c162_static` and `c162_static_gradient` apply. -/
example : ∃ L : Lapack (Fin 2), ∀ (cl : Closest) (T : Matrix (Fin 2) (Fin 2) ℂ) (U : Fin 3 → Fin 1 → ℝ),
    mcCosts (n := Fin 2) cl none Tᵀ true false (realMc L) [1, 2, 1] [] [] [[5], [3], [1]] =
      mcCosts (n := Fin 2) cl none T true false (realMc L) [1, 2, 1] [] [] [[1], [3], [5]] ∧
    ∃ g : Fin 3 → Fin 1 → ℝ, mcGrad (n := Fin 2) cl none T true false (realMc L) [1, 2, 1] [] [] (rowsOf U) = .ok (rowsOf g) ∧
      mcGrad (n := Fin 2) cl none Tᵀ true false (realMc L) [1, 2, 1] [] [] (rowsOf U).reverse = .ok (rowsOf g).reverse := by
  obtain ⟨L, -, -, hE, hF⟩ := lapack_exists (Fin 2)
  have hz : ∀ H ∈ [!![1, 0; 0, -1], (!![0, 1; 1, 0] : Matrix (Fin 2) (Fin 2) ℂ)], Hᵀ = H := by
    intro H hH
    simp only [List.mem_cons, List.not_mem_nil, or_false] at hH
    rcases hH with rfl | rfl <;> ext i j <;> fin_cases i <;> fin_cases j <;> rfl
  have hs : Symmetric (realPar L) [1, 2, 1] (realMc L) := by
    refine ⟨rfl, ?_, ?_, hz, rfl, rfl, rfl⟩
    · intro H hH
      simp only [realPar, List.mem_cons, List.not_mem_nil, or_false] at hH
      rcases hH with rfl | rfl | rfl
      · exact hz _ (by simp)
      · simp
      · exact hz _ (by simp)
    · intro H hH
      simp only [realPar, List.mem_cons, List.not_mem_nil, or_false] at hH
      subst hH
      exact hz _ (by simp)
  have hn : NoisyPulse (realPar L) [1, 2, 1] (realMc L).hNoise := by
    refine ⟨⟨by simp [realPar], rfl, by simp [realPar]⟩, Or.inl ⟨rfl, rfl⟩, rfl, hE, by simp [realPar], ?_, ?_, Ex161.herm⟩
    · intro H hH
      simp only [realPar, List.mem_cons, List.not_mem_nil, or_false] at hH
      rcases hH with rfl | rfl | rfl
      · exact Ex161.herm _ (by simp)
      · exact Matrix.isHermitian_zero
      · exact Ex161.herm _ (by simp)
    · intro H hH
      simp only [realPar, List.mem_cons, List.not_mem_nil, or_false] at hH
      subst hH
      exact Ex161.herm _ (by simp)
  refine ⟨L, fun cl T U => ⟨?_, ?_⟩⟩
  · exact (c162_static (realPar L) [1, 2, 1] (realMc L) hs (fun _ _ _ _ => rfl) hn ⟨rfl, rfl, rfl, rfl, rfl⟩ (Or.inl rfl) cl none true false
      (Or.inr rfl) T [] _ _ (realAmps L [[1], [3], [5]] rfl (by simp)) _ (realAmps L [[5], [3], [1]] rfl (by simp)) [] [] [] []).1
  · exact c162_static_gradient (realPar L) [1, 2, 1] (realMc L) hs (fun _ _ _ _ => rfl) hn ⟨rfl, rfl, rfl, rfl, rfl⟩ rfl hF
      (fun V => ⟨rowsOf V, realAmps L _ (rowsOf_shape V).1 (rowsOf_shape V).2⟩) rfl (by show 0 < 4; norm_num) cl none (by simp) true false
      (Or.inr rfl) T [] [] [] [] U

end Ex162

end Verif.Sim
