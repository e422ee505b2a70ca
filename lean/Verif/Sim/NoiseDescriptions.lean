import Verif.Sim.EstimatorState
import Verif.Sim.Mirror

/-!
# C161: equivalent descriptions of the noise

Different noise operators and noise samples can describe the same noise, and the traces are interchangeable.  Consequences for
`SchroedingerSMonteCarlo` (solver_algorithms.py:1015-1410) and the noise costs (cost_functions.py).
-/

namespace Verif.Sim
open Verif Verif.Transfer Verif.Operator Verif.Solver Verif.Cost Matrix

variable {n m : Type} [Fintype n] [DecidableEq n]

/-! ## Specification -/

/-- A Monte Carlo solver with one sample for each noise operator, trace and time step and without noise amplitude function. -/
structure Given (M : MC n m) (p : SPar n m) (τ : List ℝ) : Prop where
  base : M.base = p.cfg
  amp : M.noiseAmp = none
  ops : M.samples.d0 = M.hNoise.length
  traces : M.samples.d1 = M.nTraces
  times : M.samples.d2 = (p.xTimes τ).length

/-- Two Monte Carlo solvers return the same propagators, forward and reversed propagators and derivatives for all noise traces. -/
structure SameTraces (M M' : MC n m) (times : List ℝ) (y x u : Solver.Pulse) : Prop where
  props : propsNoise M' times y x u = propsNoise M times y x u
  fwd : fwdNoise M' times y x u = fwdNoise M times y x u
  rev : revNoise M' times y x u = revNoise M times y x u
  deriv : derivsNoise M' times y x u = derivsNoise M times y x u

/-- The operators multiplied by numbers. -/
def scaleOps (c : List ℝ) (hN : List (Matrix n n ℂ)) : List (Matrix n n ℂ) := List.zipWith (fun (a : ℝ) H => (a : ℂ) • H) c hN

/-- Every noise operator multiplied by a number, the samples divided by it. -/
noncomputable def scaled (M : MC n m) (c : List ℝ) : MC n m :=
  { M with hNoise := scaleOps c M.hNoise,
           samples := ⟨M.samples.d0, M.samples.d1, M.samples.d2, fun j k t => M.samples.val j k t / c.getD j 1⟩ }

/-- Noise operators and samples in another order. -/
def permuted (M : MC n m) (σ : Equiv.Perm (Fin M.hNoise.length)) : MC n m :=
  { M with hNoise := List.ofFn fun j => M.hNoise[σ j],
           samples := ⟨M.samples.d0, M.samples.d1, M.samples.d2, fun j k t =>
             if h : j < M.hNoise.length then M.samples.val (σ ⟨j, h⟩) k t else 0⟩ }

/-- One noise operator, the weighted sum, with the samples `r`. -/
def merged (M : MC n m) (c : Nat → ℝ) (r : Nat → Nat → ℝ) : MC n m :=
  { M with hNoise := [∑ j : Fin M.hNoise.length, ((c j : ℝ) : ℂ) • M.hNoise[j]],
           samples := ⟨1, M.samples.d1, M.samples.d2, fun _ k t => r k t⟩ }

/-- The noise traces in another order. -/
def reordered (M : MC n m) (σ : Equiv.Perm (Fin M.nTraces)) : MC n m :=
  { M with samples := ⟨M.samples.d0, M.samples.d1, M.samples.d2, fun j k t =>
             if h : k < M.nTraces then M.samples.val j (σ ⟨k, h⟩) t else 0⟩ }

/-- The same solver with the noise traces `s`. -/
def withTraces (M : MC n m) (s : Arr3) : MC n m := { M with nTraces := s.d1, samples := s }

/-- The traces of one batch followed by those of another. -/
def joined (s s' : Arr3) : Arr3 :=
  ⟨s.d0, s.d1 + s'.d1, s.d2, fun j k t => if k < s.d1 then s.val j k t else s'.val j (k - s.d1) t⟩

/-- The noise of `M'` is that of `M` in other units (`a`), another basis (`V`) and up to energies `e` which may fluctuate. -/
def SameNoise (V : Matrix n n ℂ) (a : ℝ) (M M' : MC n m) (N : Nat) : Prop :=
  M'.nTraces = M.nTraces ∧ ∃ e : Nat → Nat → ℝ, ∀ k t, k < M.nTraces → t < N →
    ∑ j : Fin M'.hNoise.length, ((M'.samples.val j k t : ℝ) : ℂ) • M'.hNoise[j] =
      rewrite V a (e k t) (∑ j : Fin M.hNoise.length, ((M.samples.val j k t : ℝ) : ℂ) • M.hNoise[j])

/-- The mean of two values weighted with the numbers of traces. -/
noncomputable def weighted (K K' : Nat) (a b : ℝ) : ℝ := (K * a + K' * b) / (K + K' : ℕ)

/-! ## Lemmas -/

theorem noiseRun_congr {M M' : MC n m} (hb : M'.base = M.base) (hp : M'.procs = M.procs) (hK : M'.nTraces = M.nTraces)
    {y x u : Solver.Pulse} (hg : dynGenNoise M' y x u = dynGenNoise M y x u) (wd : Bool) (times : List ℝ) :
    noiseRun M' wd times y x u = noiseRun M wd times y x u := by
  unfold noiseRun
  rw [hg, hb, hp, hK]

theorem sameTraces_of {M M' : MC n m} (hb : M'.base = M.base) (hp : M'.procs = M.procs) (hK : M'.nTraces = M.nTraces)
    {y x u : Solver.Pulse} (hg : dynGenNoise M' y x u = dynGenNoise M y x u) (times : List ℝ) : SameTraces M M' times y x u := by
  have hr := noiseRun_congr hb hp hK hg (times := times)
  have hps : propsNoise M' times y x u = propsNoise M times y x u := by
    unfold propsNoise
    rw [hb, hr]
  refine ⟨hps, ?_, ?_, ?_⟩
  · unfold fwdNoise
    rw [hps, hb]
  · unfold revNoise
    rw [hps, hb]
  · unfold derivsNoise
    simp only [hr, hb]

/-! ## Noise operators and samples -/

/-- **C161** Only the total noise Hamiltonian of each trace and time step matters: solvers whose noise operators and samples have
the same weighted sums return the same results. -/
theorem c161_operators (p : SPar n m) (τ : List ℝ) (hv : p.Valid τ) (M M' : MC n m) (hM : Given M p τ) (hM' : Given M' p τ)
    (hp : M'.procs = M.procs) (hK : M'.nTraces = M.nTraces)
    (hs : ∀ k t, k < M.nTraces → t < (p.xTimes τ).length → ∑ j : Fin M'.hNoise.length, ((M'.samples.val j k t : ℝ) : ℂ) • M'.hNoise[j] =
      ∑ j : Fin M.hNoise.length, ((M.samples.val j k t : ℝ) : ℂ) • M.hNoise[j])
    (y u : Solver.Pulse) (hu : ampsOf p.cfg τ y = some u) (y' x : Solver.Pulse) : SameTraces M M' (p.xTimes τ) y' x u := by
  refine sameTraces_of (hM'.base.trans hM.base.symm) hp hK ?_ _
  rw [dynGenNoise_noisy p τ hv y u hu M hM.base hM.amp hM.ops hM.traces hM.times,
    dynGenNoise_noisy p τ hv y u hu M' hM'.base hM'.amp hM'.ops hM'.traces hM'.times, hK]
  congr 1
  refine List.map_congr_left fun k hk => ?_
  have hd : (p.noisy M'.hNoise M'.samples k).drift = (p.noisy M.hNoise M.samples k).drift := by
    show p.drift.zipIdx.map _ = p.drift.zipIdx.map _
    refine List.map_congr_left fun a ha => ?_
    have h1 : a.2 < (p.xTimes τ).length := by
      rw [← hv.2.1]
      exact List.snd_lt_of_mem_zipIdx ha
    exact congrArg (a.1 + ·) (hs k a.2 (List.mem_range.mp hk) h1)
  show schroedGens (p.noisy M'.hNoise M'.samples k).drift p.ctrl u = schroedGens (p.noisy M.hNoise M.samples k).drift p.ctrl u
  rw [hd]

/-- **C161** A factor may be moved from the noise operators into the samples. -/
theorem c161_scaled (p : SPar n m) (τ : List ℝ) (hv : p.Valid τ) (M : MC n m) (hM : Given M p τ) (c : List ℝ)
    (hc : c.length = M.hNoise.length) (h0 : ∀ a ∈ c, a ≠ 0) (y u : Solver.Pulse) (hu : ampsOf p.cfg τ y = some u) (y' x : Solver.Pulse) :
    SameTraces M (scaled M c) (p.xTimes τ) y' x u := by
  have hl : (scaleOps c M.hNoise).length = M.hNoise.length := by simp [scaleOps, hc]
  refine c161_operators p τ hv M (scaled M c) hM ⟨hM.base, hM.amp, hM.ops.trans hl.symm, hM.traces, hM.times⟩ rfl rfl (fun k t _ _ => ?_) y u hu y' x
  refine Fintype.sum_equiv (finCongr hl) _ _ fun j => ?_
  have hj : (j : Nat) < c.length := by rw [hc, ← hl]; exact j.2
  have hne : ((c[(j : Nat)] : ℝ) : ℂ) ≠ 0 := by exact_mod_cast h0 _ (List.getElem_mem hj)
  show ((M.samples.val j k t / c.getD j 1 : ℝ) : ℂ) • (scaleOps c M.hNoise)[(j : Nat)] = ((M.samples.val j k t : ℝ) : ℂ) • M.hNoise[(j : Nat)]
  simp only [scaleOps, List.getElem_zipWith, List.getD_eq_getElem _ _ hj]
  rw [smul_smul]
  congr 1
  push_cast
  field_simp

/-- **C161** The order of the noise operators does not matter if the samples are given in the same order. -/
theorem c161_permuted (p : SPar n m) (τ : List ℝ) (hv : p.Valid τ) (M : MC n m) (hM : Given M p τ)
    (σ : Equiv.Perm (Fin M.hNoise.length)) (y u : Solver.Pulse) (hu : ampsOf p.cfg τ y = some u) (y' x : Solver.Pulse) :
    SameTraces M (permuted M σ) (p.xTimes τ) y' x u := by
  have hl : (List.ofFn fun j => M.hNoise[σ j]).length = M.hNoise.length := by simp
  refine c161_operators p τ hv M (permuted M σ) hM ⟨hM.base, hM.amp, hM.ops.trans hl.symm, hM.traces, hM.times⟩ rfl rfl (fun k t _ _ => ?_) y u hu y' x
  refine Fintype.sum_equiv ((finCongr hl).trans σ) _ _ fun j => ?_
  have hj : (j : Nat) < M.hNoise.length := lt_of_lt_of_eq j.2 hl
  show (((if h : (j : Nat) < M.hNoise.length then M.samples.val (σ ⟨j, h⟩) k t else 0 : ℝ)) : ℂ) •
    (List.ofFn fun j => M.hNoise[σ j])[(j : Nat)]'j.2 = _
  rw [dif_pos hj, List.getElem_ofFn]
  rfl

/-- **C161** Perfectly correlated noise sources are one source. -/
theorem c161_correlated (p : SPar n m) (τ : List ℝ) (hv : p.Valid τ) (M : MC n m) (hM : Given M p τ) (c : Nat → ℝ) (r : Nat → Nat → ℝ)
    (hr : ∀ j k t, j < M.hNoise.length → k < M.nTraces → t < (p.xTimes τ).length → M.samples.val j k t = c j * r k t)
    (y u : Solver.Pulse) (hu : ampsOf p.cfg τ y = some u) (y' x : Solver.Pulse) :
    SameTraces M (merged M c r) (p.xTimes τ) y' x u := by
  refine c161_operators p τ hv M (merged M c r) hM ⟨hM.base, hM.amp, rfl, hM.traces, hM.times⟩ rfl rfl (fun k t hk ht => ?_) y u hu y' x
  have : ∑ j : Fin 1, ((r k t : ℝ) : ℂ) • [∑ j : Fin M.hNoise.length, ((c j : ℝ) : ℂ) • M.hNoise[j]][j] =
      ((r k t : ℝ) : ℂ) • ∑ j : Fin M.hNoise.length, ((c j : ℝ) : ℂ) • M.hNoise[j] := by
    rw [Fin.sum_univ_one]
    rfl
  refine this.trans ?_
  rw [Finset.smul_sum]
  refine Finset.sum_congr rfl fun j _ => ?_
  rw [smul_smul, hr j k t j.2 hk ht]
  congr 1
  push_cast
  ring

/-- **C161** Costs and gradients see the noise through these results only. -/
theorem c161_costs (M M' : MC n n) (hb : M'.base = M.base) (times : List ℝ) (y x u : Solver.Pulse) (h : SameTraces M M' times y x u)
    (cl : Closest) (cs : Option (List n)) (T : Matrix (CompIdx cs) (CompIdx cs) ℂ) (mcu nse : Bool) (l : List n) :
    mcCosts cl cs T mcu nse M' times y x u = mcCosts cl cs T mcu nse M times y x u ∧
    mcGrad cl cs T mcu nse M' times y x u = mcGrad cl cs T mcu nse M times y x u ∧
    mcLeakCosts l M' times y x u = mcLeakCosts l M times y x u ∧
    mcLiouvilleLeakCosts l M' times y x u = mcLiouvilleLeakCosts l M times y x u := by
  refine ⟨?_, ?_, ?_, ?_⟩
  · unfold mcCosts
    rw [hb, h.fwd]
  · unfold mcGrad mcClean mcTraces
    rw [hb, h.fwd, h.rev, h.deriv]
  · unfold mcLeakCosts
    rw [h.fwd]
  · unfold mcLiouvilleLeakCosts
    rw [h.fwd]

/-- **C161** The same for states. -/
theorem c161_state_costs (M M' : MC n (Fin 1)) (hb : M'.base = M.base) (times : List ℝ) (y x u : Solver.Pulse)
    (h : SameTraces M M' times y x u) (cs : Option (List n)) (T : Matrix (Fin 1) (CompIdx cs) ℂ) (rescale nse : Bool) :
    mcStateCosts cs T rescale nse M' times y x u = mcStateCosts cs T rescale nse M times y x u := by
  unfold mcStateCosts
  rw [hb, h.fwd]

/-! ## Traces -/

theorem grad_unique {N C : Nat} {f : (Fin N → Fin C → ℝ) → ℝ} {U : Fin N → Fin C → ℝ} {L L' : (Fin N → Fin C → ℝ) →L[ℝ] ℝ}
    {g g' : Fin N → Fin C → ℝ} (h : HasFDerivAt f L U) (h' : HasFDerivAt f L' U) (hg : ∀ V, L V = ∑ t, ∑ c, g t c * V t c)
    (hg' : ∀ V, L' V = ∑ t, ∑ c, g' t c * V t c) : g = g' := by
  have e := h.unique h'
  subst e
  funext t c
  have k := (hg (Pi.single t (Pi.single c 1))).symm.trans (hg' (Pi.single t (Pi.single c 1)))
  have key : ∀ a : Fin N → Fin C → ℝ, ∑ t', ∑ c', a t' c' * (Pi.single t (Pi.single c (1 : ℝ)) : Fin N → Fin C → ℝ) t' c' = a t c := by
    intro a
    rw [Finset.sum_eq_single t, Finset.sum_eq_single c]
    · simp
    · intro c' _ hc
      simp [Pi.single_eq_of_ne hc]
    · simp
    · intro t' _ ht
      simp [Pi.single_eq_of_ne ht]
    · simp
  rwa [key, key] at k

theorem weighted_mean {K K' : Nat} (f : Fin K → ℝ) (g : Fin K' → ℝ) (hK : 0 < K) (hK' : 0 < K') (F : Fin (K + K') → ℝ)
    (h1 : ∀ k, F (Fin.castAdd K' k) = f k) (h2 : ∀ k, F (Fin.natAdd K k) = g k) :
    (∑ k, F k) / ((K + K' : ℕ) : ℝ) = weighted K K' ((∑ k, f k) / K) ((∑ k, g k) / K') := by
  have e1 : (K : ℝ) ≠ 0 := by exact_mod_cast hK.ne'
  have e2 : (K' : ℝ) ≠ 0 := by exact_mod_cast hK'.ne'
  unfold weighted
  rw [Fin.sum_univ_add, Finset.sum_congr rfl fun k _ => h1 k, Finset.sum_congr rfl fun k _ => h2 k, mul_div_cancel₀ _ e1, mul_div_cancel₀ _ e2]

theorem traceOf_left {a b : Nat} {s s' : Arr3} (k : Fin s.d1) : traceOf a b (joined s s') (Fin.castAdd s'.d1 k) = traceOf a b s k := by
  funext j t
  show (if (k : Nat) < s.d1 then s.val j k t else _) = s.val j k t
  rw [if_pos k.2]

theorem traceOf_right {a b : Nat} {s s' : Arr3} (k : Fin s'.d1) : traceOf a b (joined s s') (Fin.natAdd s.d1 k) = traceOf a b s' k := by
  funext j t
  show (if s.d1 + (k : Nat) < s.d1 then _ else s'.val j (s.d1 + k - s.d1) t) = s'.val j k t
  rw [if_neg (by omega), Nat.add_sub_cancel_left]

omit [Fintype n] [DecidableEq n] in
theorem traceOf_reordered {a b : Nat} (M : MC n m) (σ : Equiv.Perm (Fin M.nTraces)) (k : Fin M.nTraces) :
    traceOf a b (reordered M σ).samples k = traceOf a b M.samples (σ k) := by
  funext j t
  show (if h : (k : Nat) < M.nTraces then M.samples.val j (σ ⟨k, h⟩) t else 0) = _
  rw [dif_pos k.2]
  rfl

/-- **C161** The order of the noise traces does not matter. -/
theorem c161_order (p : SPar n n) (τ : List ℝ) (M : MC n n) (h : NoisyPulse p τ M.hNoise) (hM : Given M p τ) (hp : M.ProcsOk)
    (σ : Equiv.Perm (Fin M.nTraces)) (cl : Closest) (cs : Option (List n)) (T : Matrix (CompIdx cs) (CompIdx cs) ℂ) (mcu nse : Bool)
    (l : List n) (y u : Solver.Pulse) (hu : ampsOf p.cfg τ y = some u) (y' x : Solver.Pulse) :
    mcCosts cl cs T mcu nse (reordered M σ) (p.xTimes τ) y' x u = mcCosts cl cs T mcu nse M (p.xTimes τ) y' x u ∧
    mcLeakCosts l (reordered M σ) (p.xTimes τ) y' x u = mcLeakCosts l M (p.xTimes τ) y' x u := by
  constructor
  · rw [mcCosts_value p τ h.valid h.stable h.method h.expm h.times M hM.base hp hM.amp hM.ops hM.traces hM.times cl cs T mcu nse y u y' x hu,
      mcCosts_value p τ h.valid h.stable h.method h.expm h.times (reordered M σ) hM.base hp hM.amp hM.ops hM.traces hM.times cl cs T mcu nse
        y u y' x hu]
    refine congrArg (fun z : ℝ => Except.ok (z / M.nTraces)) (Fintype.sum_equiv σ _ _ fun k => ?_)
    exact congrArg _ (traceOf_reordered M σ k)
  · rw [mcLeakCosts_value p τ M.hNoise h l M hM.base rfl hp hM.amp hM.ops hM.traces hM.times y u y' x hu,
      mcLeakCosts_value p τ M.hNoise h l (reordered M σ) hM.base rfl hp hM.amp hM.ops hM.traces hM.times y u y' x hu]
    refine congrArg (fun z : ℝ => Except.ok (z / M.nTraces)) (Fintype.sum_equiv σ _ _ fun k => ?_)
    exact congrArg _ (traceOf_reordered M σ k)

/-- **C161** The costs of two batches of noise traces together are the mean of the costs of the batches, weighted with the numbers
of traces. -/
theorem c161_batches (p : SPar n n) (τ : List ℝ) (M : MC n n) (h : NoisyPulse p τ M.hNoise) (s s' : Arr3) (hM : Given (withTraces M s) p τ)
    (hM' : Given (withTraces M s') p τ) (hK : 0 < s.d1) (hK' : 0 < s'.d1) (hp : M.ProcsOk)
    (cl : Closest) (cs : Option (List n)) (T : Matrix (CompIdx cs) (CompIdx cs) ℂ) (mcu nse : Bool)
    (l : List n) (y u : Solver.Pulse) (hu : ampsOf p.cfg τ y = some u) (y' x : Solver.Pulse) :
    (∃ a b, mcCosts cl cs T mcu nse (withTraces M s) (p.xTimes τ) y' x u = .ok a ∧
      mcCosts cl cs T mcu nse (withTraces M s') (p.xTimes τ) y' x u = .ok b ∧
      mcCosts cl cs T mcu nse (withTraces M (joined s s')) (p.xTimes τ) y' x u = .ok (weighted s.d1 s'.d1 a b)) ∧
    ∃ a b, mcLeakCosts l (withTraces M s) (p.xTimes τ) y' x u = .ok a ∧ mcLeakCosts l (withTraces M s') (p.xTimes τ) y' x u = .ok b ∧
      mcLeakCosts l (withTraces M (joined s s')) (p.xTimes τ) y' x u = .ok (weighted s.d1 s'.d1 a b) := by
  constructor
  · refine ⟨_, _, mcCosts_value p τ h.valid h.stable h.method h.expm h.times (withTraces M s) hM.base hp hM.amp hM.ops hM.traces hM.times cl cs
      T mcu nse y u y' x hu, mcCosts_value p τ h.valid h.stable h.method h.expm h.times (withTraces M s') hM'.base hp hM'.amp hM'.ops hM'.traces
      hM'.times cl cs T mcu nse y u y' x hu, ?_⟩
    rw [mcCosts_value p τ h.valid h.stable h.method h.expm h.times (withTraces M (joined s s')) hM.base hp hM.amp hM.ops rfl hM.times cl cs
      T mcu nse y u y' x hu]
    refine congrArg Except.ok (weighted_mean _ _ hK hK' _ (fun k => ?_) fun k => ?_)
    · exact congrArg _ (traceOf_left k)
    · exact congrArg _ (traceOf_right k)
  · refine ⟨_, _, mcLeakCosts_value p τ M.hNoise h l (withTraces M s) hM.base rfl hp hM.amp hM.ops hM.traces hM.times y u y' x hu,
      mcLeakCosts_value p τ M.hNoise h l (withTraces M s') hM'.base rfl hp hM'.amp hM'.ops hM'.traces hM'.times y u y' x hu, ?_⟩
    rw [mcLeakCosts_value p τ M.hNoise h l (withTraces M (joined s s')) hM.base rfl hp hM.amp hM.ops rfl hM.times y u y' x hu]
    refine congrArg Except.ok (weighted_mean _ _ hK hK' _ (fun k => ?_) fun k => ?_)
    · exact congrArg _ (traceOf_left k)
    · exact congrArg _ (traceOf_right k)

/-- **C161** Order and batches of the traces for states. -/
theorem c161_state_traces (p : SPar n (Fin 1)) (τ : List ℝ) (M : MC n (Fin 1)) (h : NoisyPulse p τ M.hNoise) (hp : M.ProcsOk)
    (cs : Option (List n)) (T : Matrix (Fin 1) (CompIdx cs) ℂ) (rescale nse : Bool)
    (y u : Solver.Pulse) (hu : ampsOf p.cfg τ y = some u) (y' x : Solver.Pulse) :
    (∀ (_ : Given M p τ) (σ : Equiv.Perm (Fin M.nTraces)),
      mcStateCosts cs T rescale nse (reordered M σ) (p.xTimes τ) y' x u = mcStateCosts cs T rescale nse M (p.xTimes τ) y' x u) ∧
    ∀ s s' : Arr3, Given (withTraces M s) p τ → Given (withTraces M s') p τ → 0 < s.d1 → 0 < s'.d1 →
      ∃ a b, mcStateCosts cs T rescale nse (withTraces M s) (p.xTimes τ) y' x u = .ok a ∧
        mcStateCosts cs T rescale nse (withTraces M s') (p.xTimes τ) y' x u = .ok b ∧
        mcStateCosts cs T rescale nse (withTraces M (joined s s')) (p.xTimes τ) y' x u = .ok (weighted s.d1 s'.d1 a b) := by
  constructor
  · intro hM σ
    rw [mcStateCosts_value p τ M.hNoise h cs T rescale nse M hM.base rfl hp hM.amp hM.ops hM.traces hM.times y u y' x hu,
      mcStateCosts_value p τ M.hNoise h cs T rescale nse (reordered M σ) hM.base rfl hp hM.amp hM.ops hM.traces hM.times y u y' x hu]
    refine congrArg (fun z : ℝ => Except.ok (z / M.nTraces)) (Fintype.sum_equiv σ _ _ fun k => ?_)
    exact congrArg _ (traceOf_reordered M σ k)
  · intro s s' hM hM' hK hK'
    refine ⟨_, _, mcStateCosts_value p τ M.hNoise h cs T rescale nse (withTraces M s) hM.base rfl hp hM.amp hM.ops hM.traces hM.times y u y' x hu,
      mcStateCosts_value p τ M.hNoise h cs T rescale nse (withTraces M s') hM'.base rfl hp hM'.amp hM'.ops hM'.traces hM'.times y u y' x hu, ?_⟩
    rw [mcStateCosts_value p τ M.hNoise h cs T rescale nse (withTraces M (joined s s')) hM.base rfl hp hM.amp hM.ops rfl hM.times y u y' x hu]
    refine congrArg Except.ok (weighted_mean _ _ hK hK' _ (fun k => ?_) fun k => ?_)
    · exact congrArg _ (traceOf_left k)
    · exact congrArg _ (traceOf_right k)

/-- **C161** The gradient of the noise infidelity does not depend on the order of the traces, and the gradient of two batches is the
weighted mean of their gradients. -/
theorem c161_gradient (p : SPar n n) (τ : List ℝ) (M : MC n n) (h : NoisyPulse p τ M.hNoise) (happ : p.approx = .none) (hF : p.L.FrechetOk)
    (hreach : ∀ U : Fin (p.xTimes τ).length → Fin p.ctrl.length → ℝ, ∃ y, ampsOf p.cfg τ y = some (rowsOf U)) (hp : M.procs = .int 1)
    (cl : Closest) (cs : Option (List n)) (hcs : cs ≠ some []) (mcu nse : Bool) (hm : mcu = false ∨ cs = none)
    (T : Matrix (CompIdx cs) (CompIdx cs) ℂ) (y' x : Solver.Pulse) (U : Fin (p.xTimes τ).length → Fin p.ctrl.length → ℝ) :
    (∀ (_ : Given M p τ) (_ : 0 < M.nTraces) (σ : Equiv.Perm (Fin M.nTraces)),
      ∃ g : Fin (p.xTimes τ).length → Fin p.ctrl.length → ℝ, mcGrad cl cs T mcu nse M (p.xTimes τ) y' x (rowsOf U) = .ok (rowsOf g) ∧
        mcGrad cl cs T mcu nse (reordered M σ) (p.xTimes τ) y' x (rowsOf U) = .ok (rowsOf g)) ∧
    ∀ s s' : Arr3, Given (withTraces M s) p τ → Given (withTraces M s') p τ → 0 < s.d1 → 0 < s'.d1 →
      ∃ a b : Fin (p.xTimes τ).length → Fin p.ctrl.length → ℝ,
        mcGrad cl cs T mcu nse (withTraces M s) (p.xTimes τ) y' x (rowsOf U) = .ok (rowsOf a) ∧
        mcGrad cl cs T mcu nse (withTraces M s') (p.xTimes τ) y' x (rowsOf U) = .ok (rowsOf b) ∧
        mcGrad cl cs T mcu nse (withTraces M (joined s s')) (p.xTimes τ) y' x (rowsOf U) =
          .ok (rowsOf fun t c => weighted s.d1 s'.d1 (a t c) (b t c)) := by
  have hs : ∀ M' : MC n n, Given M' p τ → M'.procs = .int 1 → 0 < M'.nTraces → Sampled M' p τ := fun M' g hp hK =>
    ⟨g.base, hp, g.amp, g.ops, g.traces, g.times, hK⟩
  have key := fun (M' : MC n n) (hM' : Sampled M' p τ) => c93_noise_total p τ h.valid h.stable h.method happ h.expm hF h.times hreach M' hM' cl cs
    hcs mcu nse hm T y' x U
  have hpo : M.ProcsOk := Or.inl hp
  constructor
  · intro hM hK σ
    obtain ⟨g, g1, g2, L, g3, g4⟩ := key M (hs M hM hp hK)
    obtain ⟨g', g1', g2', L', g3', g4'⟩ := key (reordered M σ) (hs _ ⟨hM.base, hM.amp, hM.ops, hM.traces, hM.times⟩ hp hK)
    refine ⟨g, g1, ?_⟩
    rw [g1']
    refine congrArg (fun z => Except.ok (rowsOf z)) (grad_unique g3' (g3.congr_of_eventuallyEq (Filter.Eventually.of_forall fun V => ?_)) g4' g4)
    obtain ⟨y, hy⟩ := hreach V
    have := (c161_order p τ M h hM hpo σ cl cs T mcu nse [] y _ hy y' x).1
    rw [g2, g2'] at this
    exact Except.ok.inj this
  · intro s s' hM hM' hK hK'
    obtain ⟨a, a1, a2, L, a3, a4⟩ := key (withTraces M s) (hs _ hM hp hK)
    obtain ⟨b, b1, b2, L', b3, b4⟩ := key (withTraces M s') (hs _ hM' hp hK')
    obtain ⟨g, g1, g2, L₂, g3, g4⟩ := key (withTraces M (joined s s')) (hs _ ⟨hM.base, hM.amp, hM.ops, rfl, hM.times⟩ hp
      (Nat.add_pos_left hK _))
    refine ⟨a, b, a1, b1, ?_⟩
    rw [g1]
    have hsum := (((a3.const_mul (s.d1 : ℝ)).add (b3.const_mul (s'.d1 : ℝ))).mul_const (((s.d1 + s'.d1 : ℕ) : ℝ)⁻¹))
    refine congrArg (fun z => Except.ok (rowsOf z)) (grad_unique g3 (hsum.congr_of_eventuallyEq (Filter.Eventually.of_forall fun V => ?_)) g4
      fun V => ?_)
    · obtain ⟨y, hy⟩ := hreach V
      obtain ⟨c, d, c1, d1, e1⟩ := (c161_batches p τ M h s s' hM hM' hK hK' hpo cl cs T mcu nse [] y _ hy y' x).1
      rw [g2] at e1
      rw [a2] at c1
      rw [b2] at d1
      refine (Except.ok.inj e1).trans ?_
      rw [← Except.ok.inj c1, ← Except.ok.inj d1]
      unfold weighted
      rw [div_eq_mul_inv]
      rfl
    · simp only [_root_.smul_apply, _root_.add_apply, a4, b4, smul_eq_mul, weighted, div_eq_mul_inv]
      simp only [Finset.mul_sum, ← Finset.sum_add_distrib]
      refine Finset.sum_congr rfl fun t _ => Finset.sum_congr rfl fun c _ => ?_
      ring

/-! ## Units, basis and zero of energy -/

theorem foldl_rewritten {V : Matrix n n ℂ} (hV : V ∈ Matrix.unitaryGroup n ℂ) [Fintype m] (W : Matrix m m ℂ) {l l' : List (Matrix n n ℂ)}
    (h : List.Forall₂ (fun P P' => ∃ φ : ℂ, ‖φ‖ = 1 ∧ P' = φ • (V * P * Vᴴ)) l l') :
    ∀ (X : Matrix n m ℂ) (φ : ℂ), ‖φ‖ = 1 → ∃ ψ : ℂ, ‖ψ‖ = 1 ∧
      l'.foldl (fun F P => P * F) (φ • (V * X * W)) = ψ • (V * l.foldl (fun F P => P * F) X * W) := by
  have hV2 : Vᴴ * V = 1 := Matrix.mem_unitaryGroup_iff'.mp hV
  induction h with
  | nil => exact fun X φ hφ => ⟨φ, hφ, rfl⟩
  | @cons P P' l l' hP _ ih =>
    intro X φ hφ
    obtain ⟨χ, hχ, rfl⟩ := hP
    obtain ⟨ψ, hψ, e⟩ := ih (P * X) (χ * φ) (by rw [norm_mul, hχ, hφ, one_mul])
    refine ⟨ψ, hψ, ?_⟩
    rw [List.foldl_cons, List.foldl_cons, ← e]
    congr 1
    rw [Matrix.smul_mul, Matrix.mul_smul, smul_smul]
    congr 1
    simp only [Matrix.mul_assoc]
    congr 2
    rw [← Matrix.mul_assoc Vᴴ, hV2, Matrix.one_mul]

/-- The evolution with noise of the rewritten system. -/
theorem noisyFinal_rewritten [Fintype m] (p : SPar n m) (τ τ' : List ℝ) (hv : p.Valid τ) {V : Matrix n n ℂ}
    (hV : V ∈ Matrix.unitaryGroup n ℂ) (W : Matrix m m ℂ) {a : ℝ} (ha : a ≠ 0) (e : ℝ) (hτ : p.xTimes τ' = (p.xTimes τ).map (· / a))
    (hN hN' : List (Matrix n n ℂ)) (u : Solver.Pulse) (z : Fin hN.length → Fin (p.xTimes τ).length → ℝ)
    (z' : Fin hN'.length → Fin (p.xTimes τ').length → ℝ) (d : Nat → ℝ)
    (h : ∀ (t : Fin (p.xTimes τ).length) (t' : Fin (p.xTimes τ').length), (t : Nat) = t' →
      ∑ j, ((z' j t' : ℝ) : ℂ) • hN'[j] = rewrite V a (d t) (∑ j, ((z j t : ℝ) : ℂ) • hN[j])) :
    ∃ φ : ℂ, ‖φ‖ = 1 ∧ noisyFinal (p.rewritten V W a e) hN' τ' u z' = φ • (V * noisyFinal p hN τ u z * W) := by
  have hl : (p.xTimes τ').length = (p.xTimes τ).length := by rw [hτ, List.length_map]
  have key := foldl_rewritten hV W (l := List.ofFn (noisyStep p hN τ u z)) (l' := List.ofFn (noisyStep (p.rewritten V W a e) hN' τ' u z')) (by
    refine List.forall₂_iff_get.mpr ⟨by rw [List.length_ofFn, List.length_ofFn]; exact hl.symm, fun i h1 h2 => ?_⟩
    have i1 : i < (p.xTimes τ).length := by simpa using h1
    have i2 : i < (p.xTimes τ').length := by rw [hl]; exact i1
    have i3 : i < p.drift.length := by rw [hv.2.1]; exact i1
    refine ⟨Complex.exp (-Complex.I * ((e + d i) * ((p.xTimes τ)[i] / a) : ℝ)), ?_, ?_⟩
    · rw [Complex.norm_exp]
      simp
    · rw [List.get_eq_getElem, List.get_eq_getElem, List.getElem_ofFn, List.getElem_ofFn]
      refine Eq.trans ?_ (exp_rewrite hV ha (e + d i) (p.xTimes τ)[i] (hamiltonian (p.drift.getD i 0) p.ctrl (u.getD i []) +
        ∑ j, ((z j ⟨i, i1⟩ : ℝ) : ℂ) • hN[j]))
      unfold noisyStep
      congr 3
      · show ((p.xTimes τ')[i] : ℝ) = _
        simp only [hτ, List.getElem_map]
      · show hamiltonian ((p.drift.map (rewrite V a e)).getD i 0) (p.ctrl.map (rewrite V a 0)) (u.getD i []) +
          (∑ j, ((z' j ⟨i, i2⟩ : ℝ) : ℂ) • hN'[j]) = _
        rw [h ⟨i, i1⟩ ⟨i, i2⟩ rfl, List.getD_eq_getElem _ _ (by simpa using i3), List.getElem_map, rewrite_hamiltonian,
          List.getD_eq_getElem _ _ i3]
        unfold rewrite
        rw [Matrix.mul_add, Matrix.add_mul, smul_add]
        push_cast
        rw [add_smul]
        abel) p.init 1 (by simp)
  rw [one_smul] at key
  exact key

theorem entFid_both {V : Matrix n n ℂ} (hV : V ∈ Matrix.unitaryGroup n ℂ) {φ ψ : ℂ} (hφ : ‖φ‖ = 1) (hψ : ‖ψ‖ = 1) (cl : Closest)
    (T E : Matrix n n ℂ) (mcu : Bool) : entFid cl none (ψ • (V * T * Vᴴ)) (φ • (V * E * Vᴴ)) mcu = entFid cl none T E mcu := by
  rw [entFid_rewritten hV hφ cl T E mcu]
  have h : ‖((ψ • (V * T * Vᴴ))ᴴ * (φ • (V * E * Vᴴ))).trace‖ = ‖((V * T * Vᴴ)ᴴ * (φ • (V * E * Vᴴ))).trace‖ := by
    rw [Matrix.conjTranspose_smul, Matrix.smul_mul, Matrix.trace_smul, norm_smul, norm_star, hψ, one_mul]
  exact congrArg (fun z => z ^ 2 / dim (n := n) none / dim (n := n) none) h

theorem entFid_phases {φ ψ : ℂ} (hφ : ‖φ‖ = 1) (hψ : ‖ψ‖ = 1) (cl : Closest) (cs : Option (List n)) (mcu : Bool) (hm : mcu = false ∨ cs = none)
    (T : Matrix (CompIdx cs) (CompIdx cs) ℂ) (E : Matrix n n ℂ) : entFid cl cs (ψ • T) (φ • E) mcu = entFid cl cs T E mcu := by
  rw [entFid_phase_unit cl cs hm _ _ hφ]
  unfold entFid
  rw [Matrix.conjTranspose_smul, Matrix.smul_mul, Matrix.trace_smul, norm_smul, norm_star, hψ, one_mul]

omit [Fintype n] [DecidableEq n] in
theorem truncTo_phase (cl : Closest) (cs : Option (List n)) (mcu : Bool) (hm : mcu = false ∨ cs = none) (φ : ℂ) (E : Matrix n n ℂ) :
    truncTo cl cs mcu (φ • E) = φ • truncTo cl cs mcu E := by
  rcases hm with rfl | rfl
  · cases cs <;> rfl
  · rfl

/-- Two solvers for the same experiment in different descriptions. -/
structure Rewritten [Fintype m] (p : SPar n m) (τ τ' : List ℝ) (V : Matrix n n ℂ) (W : Matrix m m ℂ) (a e : ℝ) (M M' : MC n m) : Prop where
  basis : V ∈ Matrix.unitaryGroup n ℂ
  unit : a ≠ 0
  times : p.xTimes τ' = (p.xTimes τ).map (· / a)
  pulse : NoisyPulse p τ M.hNoise
  hermitian : ∀ H ∈ M'.hNoise, H.IsHermitian
  given : Given M p τ
  given' : Given M' (p.rewritten V W a e) τ'
  procs : M.ProcsOk
  procs' : M'.ProcsOk
  noise : SameNoise V a M M' (p.xTimes τ).length

theorem Rewritten.pulse' [Fintype m] {p : SPar n m} {τ τ' : List ℝ} {V : Matrix n n ℂ} {W : Matrix m m ℂ} {a e : ℝ} {M M' : MC n m}
    (h : Rewritten p τ τ' V W a e M M') : NoisyPulse (p.rewritten V W a e) τ' M'.hNoise := by
  have hx : (p.rewritten V W a e).xTimes τ' = (p.xTimes τ).map (· / a) := h.times
  refine ⟨⟨by simpa [SPar.rewritten] using h.pulse.valid.1, ?_, h.pulse.valid.2.2⟩, ?_, h.pulse.method, h.pulse.expm, ?_, ?_, ?_, h.hermitian⟩
  · rw [hx]
    simpa [SPar.rewritten] using h.pulse.valid.2.1
  · rcases h.pulse.stable with h1 | ⟨h1, h2, -⟩ | h1
    · exact Or.inl h1
    · refine Or.inr (Or.inl ⟨h1, h2, fun times u t Ds hD => ?_⟩)
      have : (List.replicate times.length ((p.ctrl.map (rewrite V a 0)).map fun H => (-Complex.I) • H))[t]? = some Ds := hD
      rw [List.getElem?_replicate] at this
      split at this
      · simp only [Option.some.injEq] at this
        rw [← this]
        simpa using h.pulse.valid.1
      · cases this
    · exact Or.inr (Or.inr h1)
  · rw [hx]
    simpa using h.pulse.times
  · intro H hH
    obtain ⟨G, hG, rfl⟩ := List.mem_map.mp hH
    exact rewrite_hermitian (h.pulse.drift G hG)
  · intro H hH
    obtain ⟨G, hG, rfl⟩ := List.mem_map.mp hH
    exact rewrite_hermitian (h.pulse.ctrl G hG)

/-- All traces, and the evolution without noise, up to phases. -/
theorem Rewritten.finals [Fintype m] {p : SPar n m} {τ τ' : List ℝ} {V : Matrix n n ℂ} {W : Matrix m m ℂ} {a e : ℝ} {M M' : MC n m}
    (h : Rewritten p τ τ' V W a e M M') (u : Solver.Pulse) :
    (∃ φ : ℂ, ‖φ‖ = 1 ∧ noisyFinal (p.rewritten V W a e) M'.hNoise τ' u 0 = φ • (V * noisyFinal p M.hNoise τ u 0 * W)) ∧
    ∀ k, k < M.nTraces → ∃ φ : ℂ, ‖φ‖ = 1 ∧ noisyFinal (p.rewritten V W a e) M'.hNoise τ' u (traceOf _ _ M'.samples k) =
      φ • (V * noisyFinal p M.hNoise τ u (traceOf _ _ M.samples k) * W) := by
  constructor
  · refine noisyFinal_rewritten p τ τ' h.pulse.valid h.basis W h.unit e h.times M.hNoise M'.hNoise u 0 0 (fun _ => 0) fun t t' _ => ?_
    simp [rewrite]
  · intro k hk
    obtain ⟨d, hd⟩ := h.noise.2
    refine noisyFinal_rewritten p τ τ' h.pulse.valid h.basis W h.unit e h.times M.hNoise M'.hNoise u _ _ (d k) fun t t' ht => ?_
    have := hd k t hk t.2
    rw [ht] at this
    rw [ht]
    refine Eq.trans this ?_
    congr 1
    refine Finset.sum_congr rfl fun j _ => ?_
    rw [← ht]
    rfl

theorem Rewritten.sum [Fintype m] {p : SPar n m} {τ τ' : List ℝ} {V : Matrix n n ℂ} {W : Matrix m m ℂ} {a e : ℝ} {M M' : MC n m}
    (h : Rewritten p τ τ' V W a e M M') (f : Fin M.nTraces → ℝ) (f' : Fin M'.nTraces → ℝ)
    (hf : ∀ (k : Fin M'.nTraces) (hk : (k : Nat) < M.nTraces), f' k = f ⟨k, hk⟩) :
    (Except.ok ((∑ k : Fin M'.nTraces, f' k) / M'.nTraces) : Except PyErr ℝ) = .ok ((∑ k : Fin M.nTraces, f k) / M.nTraces) := by
  have hK := h.noise.1
  have hs : ∑ k, f' k = ∑ k, f k := Fintype.sum_equiv (finCongr hK) _ _ fun k => hf k (lt_of_lt_of_eq k.2 hK)
  rw [hs, hK]

/-- **C161** Noise infidelities do not depend on the basis, the units of energy and time, and the zero of energy, even if the latter
fluctuates. -/
theorem c161_basis (p : SPar n n) (τ τ' : List ℝ) (V : Matrix n n ℂ) (a e : ℝ) (M M' : MC n n) (h : Rewritten p τ τ' V Vᴴ a e M M')
    (cl : Closest) (T : Matrix n n ℂ) (mcu nse : Bool) (y u : Solver.Pulse) (hu : ampsOf p.cfg τ y = some u) (z : Solver.Pulse)
    (hu' : ampsOf (p.rewritten V Vᴴ a e).cfg τ' z = some u) (y' x y'' x' : Solver.Pulse) :
    mcCosts (n := n) cl none (V * T * Vᴴ) mcu nse M' ((p.rewritten V Vᴴ a e).xTimes τ') y'' x' u =
      mcCosts (n := n) cl none T mcu nse M (p.xTimes τ) y' x u := by
  have g := h.given
  have g' := h.given'
  have q := h.pulse'
  rw [mcCosts_value p τ h.pulse.valid h.pulse.stable h.pulse.method h.pulse.expm h.pulse.times M g.base h.procs g.amp g.ops g.traces g.times cl
    none T mcu nse y u y' x hu, mcCosts_value _ τ' q.valid q.stable q.method q.expm q.times M' g'.base h.procs' g'.amp g'.ops g'.traces g'.times
    cl none (V * T * Vᴴ) mcu nse z u y'' x' hu']
  obtain ⟨⟨ψ, hψ, e0⟩, hk⟩ := h.finals u
  refine h.sum _ _ fun k hk' => ?_
  obtain ⟨φ, hφ, e1⟩ := hk k hk'
  unfold traceInfidelity
  rw [e0, e1]
  refine congrArg (1 - ·) ?_
  cases nse
  · exact (entFid_rewritten h.basis hφ cl T _ mcu).symm
  · exact entFid_both h.basis hφ hψ cl _ _ mcu

/-- **C161** The same for noise infidelities of states. -/
theorem c161_basis_state (p : SPar n (Fin 1)) (τ τ' : List ℝ) (V : Matrix n n ℂ) (a e : ℝ) (M M' : MC n (Fin 1))
    (h : Rewritten p τ τ' V 1 a e M M') (T : Matrix (Fin 1) n ℂ) (rescale nse : Bool) (y u : Solver.Pulse)
    (hu : ampsOf p.cfg τ y = some u) (z : Solver.Pulse)
    (hu' : ampsOf (p.rewritten V 1 a e).cfg τ' z = some u) (y' x y'' x' : Solver.Pulse) :
    mcStateCosts (n := n) none (T * Vᴴ) rescale nse M' ((p.rewritten V 1 a e).xTimes τ') y'' x' u =
      mcStateCosts (n := n) none T rescale nse M (p.xTimes τ) y' x u := by
  have g := h.given
  have g' := h.given'
  have hV2 : Vᴴ * V = 1 := Matrix.mem_unitaryGroup_iff'.mp h.basis
  rw [mcStateCosts_value p τ _ h.pulse none T rescale nse M g.base rfl h.procs g.amp g.ops g.traces g.times y u y' x hu,
    mcStateCosts_value _ τ' _ h.pulse' none (T * Vᴴ) rescale nse M' g'.base rfl h.procs' g'.amp g'.ops g'.traces g'.times z u y'' x' hu']
  obtain ⟨⟨ψ, hψ, e0⟩, hk⟩ := h.finals u
  refine h.sum _ _ fun k hk' => ?_
  obtain ⟨φ, hφ, e1⟩ := hk k hk'
  unfold traceStateInfidelity
  rw [e0, e1, Matrix.mul_one, Matrix.mul_one]
  have key : ∀ (B : Matrix (Fin 1) n ℂ) (A : Matrix n (Fin 1) ℂ), ‖∑ i, (B * Vᴴ) 0 i * (φ • (V * A)) i 0‖ = ‖∑ i, B 0 i * A i 0‖ := by
    intro B A
    have e2 : (B * Vᴴ) * (φ • (V * A)) = φ • (B * A) := by
      rw [Matrix.mul_smul, Matrix.mul_assoc, ← Matrix.mul_assoc Vᴴ, hV2, Matrix.one_mul]
    have e3 := congrFun (congrFun e2 0) 0
    rw [Matrix.mul_apply, Matrix.smul_apply, Matrix.mul_apply] at e3
    rw [e3, norm_smul, hφ, one_mul]
  refine congrArg (fun r : ℝ => 1 - r ^ 2) ?_
  cases nse
  · exact key T _
  · have := key (noisyFinal p M.hNoise τ u 0)ᴴ (noisyFinal p M.hNoise τ u (traceOf _ _ M.samples k))
    rw [← Matrix.conjTranspose_mul] at this
    refine Eq.trans ?_ this
    show ‖∑ i : n, star ((ψ • (V * noisyFinal p M.hNoise τ u 0)) i 0) * _‖ = _
    have e4 : ∀ i : n, star ((ψ • (V * noisyFinal p M.hNoise τ u 0)) i 0) *
        (φ • (V * noisyFinal p M.hNoise τ u (traceOf _ _ M.samples k))) i 0 = star ψ * ((V * noisyFinal p M.hNoise τ u 0)ᴴ 0 i *
        (φ • (V * noisyFinal p M.hNoise τ u (traceOf _ _ M.samples k))) i 0) := by
      intro i
      rw [Matrix.smul_apply, smul_eq_mul, star_mul', Matrix.conjTranspose_apply, mul_assoc]
    show ‖∑ i : n, star ((ψ • (V * noisyFinal p M.hNoise τ u 0)) i 0) *
      (φ • (V * noisyFinal p M.hNoise τ u (traceOf _ _ M.samples k))) i 0‖ = _
    rw [Finset.sum_congr rfl fun i _ => e4 i, ← Finset.mul_sum, norm_mul, norm_star, hψ, one_mul]

/-- **C161** Without change of basis the same holds on every set of computational states and for the leakage. -/
theorem c161_units (p : SPar n n) (τ τ' : List ℝ) (a e : ℝ) (M M' : MC n n) (h : Rewritten p τ τ' 1 1 a e M M')
    (cl : Closest) (cs : Option (List n)) (mcu nse : Bool) (hm : mcu = false ∨ cs = none) (T : Matrix (CompIdx cs) (CompIdx cs) ℂ) (l : List n)
    (y u : Solver.Pulse) (hu : ampsOf p.cfg τ y = some u) (z : Solver.Pulse)
    (hu' : ampsOf (p.rewritten 1 1 a e).cfg τ' z = some u) (y' x y'' x' : Solver.Pulse) :
    mcCosts cl cs T mcu nse M' ((p.rewritten 1 1 a e).xTimes τ') y'' x' u = mcCosts cl cs T mcu nse M (p.xTimes τ) y' x u ∧
    mcLeakCosts l M' ((p.rewritten 1 1 a e).xTimes τ') y'' x' u = mcLeakCosts l M (p.xTimes τ) y' x u := by
  have g := h.given
  have g' := h.given'
  have q := h.pulse'
  obtain ⟨⟨ψ, hψ, e0⟩, hk⟩ := h.finals u
  rw [Matrix.one_mul, Matrix.mul_one] at e0
  constructor
  · rw [mcCosts_value p τ h.pulse.valid h.pulse.stable h.pulse.method h.pulse.expm h.pulse.times M g.base h.procs g.amp g.ops g.traces g.times cl
      cs T mcu nse y u y' x hu, mcCosts_value _ τ' q.valid q.stable q.method q.expm q.times M' g'.base h.procs' g'.amp g'.ops g'.traces g'.times
      cl cs T mcu nse z u y'' x' hu']
    refine h.sum _ _ fun k hk' => ?_
    obtain ⟨φ, hφ, e1⟩ := hk k hk'
    rw [Matrix.one_mul, Matrix.mul_one] at e1
    unfold traceInfidelity
    rw [e0, e1]
    refine congrArg (1 - ·) ?_
    cases nse
    · exact entFid_phase_unit cl cs hm T _ hφ
    · simp only [if_true]
      rw [truncTo_phase cl cs mcu hm]
      exact entFid_phases hφ hψ cl cs mcu hm _ _
  · rw [mcLeakCosts_value p τ _ h.pulse l M g.base rfl h.procs g.amp g.ops g.traces g.times y u y' x hu,
      mcLeakCosts_value _ τ' _ q l M' g'.base rfl h.procs' g'.amp g'.ops g'.traces g'.times z u y'' x' hu']
    refine h.sum _ _ fun k hk' => ?_
    obtain ⟨φ, hφ, e1⟩ := hk k hk'
    rw [Matrix.one_mul, Matrix.mul_one] at e1
    unfold traceLeakage
    rw [e1]
    simp only [Matrix.smul_apply, norm_smul, hφ, one_mul]

theorem rowsOf_inj {N C : Nat} {U U' : Fin N → Fin C → ℝ} (h : rowsOf U = rowsOf U') : U = U' := by
  funext t
  exact List.ofFn_injective (congrFun (List.ofFn_injective h) t)

theorem grad_transport {N C N' C' : Nat} (hN : N' = N) (hC : C' = C) {f : (Fin N → Fin C → ℝ) → ℝ} {f' : (Fin N' → Fin C' → ℝ) → ℝ}
    (hff : ∀ V V', rowsOf V' = rowsOf V → f' V' = f V) {U : Fin N → Fin C → ℝ} {U' : Fin N' → Fin C' → ℝ} (hU : rowsOf U' = rowsOf U)
    {L : (Fin N → Fin C → ℝ) →L[ℝ] ℝ} {L' : (Fin N' → Fin C' → ℝ) →L[ℝ] ℝ} {g : Fin N → Fin C → ℝ} {g' : Fin N' → Fin C' → ℝ}
    (h : HasFDerivAt f L U) (h' : HasFDerivAt f' L' U') (hg : ∀ V, L V = ∑ t, ∑ c, g t c * V t c)
    (hg' : ∀ V, L' V = ∑ t, ∑ c, g' t c * V t c) : rowsOf g' = rowsOf g := by
  subst hN hC
  have hU' := rowsOf_inj hU
  subst hU'
  have e : f' = f := funext fun V => hff V V rfl
  subst e
  rw [grad_unique h' h hg' hg]

/-- The gradients of solvers with the same noise infidelity. -/
theorem Rewritten.gradient {p : SPar n n} {τ τ' : List ℝ} {V W : Matrix n n ℂ} {a e : ℝ} {M M' : MC n n}
    (h : Rewritten p τ τ' V W a e M M') (happ : p.approx = .none) (hF : p.L.FrechetOk)
    (hreach : ∀ U : Fin (p.xTimes τ).length → Fin p.ctrl.length → ℝ, ∃ y, ampsOf p.cfg τ y = some (rowsOf U))
    (hreach' : ∀ U : Fin (p.xTimes τ').length → Fin (p.rewritten V W a e).ctrl.length → ℝ,
      ∃ y, ampsOf (p.rewritten V W a e).cfg τ' y = some (rowsOf U))
    (hp : M.procs = .int 1) (hp' : M'.procs = .int 1) (hK : 0 < M.nTraces) (cl : Closest) (cs : Option (List n)) (hcs : cs ≠ some [])
    (mcu nse : Bool) (hm : mcu = false ∨ cs = none) (T T' : Matrix (CompIdx cs) (CompIdx cs) ℂ) (y' x y'' x' : Solver.Pulse)
    (hc : ∀ y z u, ampsOf p.cfg τ y = some u → ampsOf (p.rewritten V W a e).cfg τ' z = some u →
      mcCosts cl cs T' mcu nse M' ((p.rewritten V W a e).xTimes τ') y'' x' u = mcCosts cl cs T mcu nse M (p.xTimes τ) y' x u)
    (U : Fin (p.xTimes τ).length → Fin p.ctrl.length → ℝ) :
    ∃ g : Fin (p.xTimes τ).length → Fin p.ctrl.length → ℝ, mcGrad cl cs T mcu nse M (p.xTimes τ) y' x (rowsOf U) = .ok (rowsOf g) ∧
      mcGrad cl cs T' mcu nse M' ((p.rewritten V W a e).xTimes τ') y'' x' (rowsOf U) = .ok (rowsOf g) := by
  have g := h.given
  have g' := h.given'
  have q := h.pulse'
  have hN : ((p.rewritten V W a e).xTimes τ').length = (p.xTimes τ).length := by
    show (p.xTimes τ').length = _
    rw [h.times, List.length_map]
  have hC : (p.rewritten V W a e).ctrl.length = p.ctrl.length := List.length_map _
  obtain ⟨b, b1, b2, L, b3, b4⟩ := c93_noise_total p τ h.pulse.valid h.pulse.stable h.pulse.method happ h.pulse.expm hF h.pulse.times hreach M
    ⟨g.base, hp, g.amp, g.ops, g.traces, g.times, hK⟩ cl cs hcs mcu nse hm T y' x U
  have hU : rowsOf (fun t c => U (Fin.cast hN t) (Fin.cast hC c)) = rowsOf U := by
    have key : ∀ {N C N' C' : Nat} (h1 : N' = N) (h2 : C' = C) (U : Fin N → Fin C → ℝ),
        rowsOf (fun t c => U (Fin.cast h1 t) (Fin.cast h2 c)) = rowsOf U := by
      intro N C N' C' h1 h2 U
      subst h1 h2
      rfl
    exact key hN hC U
  obtain ⟨d, d1, d2, L', d3, d4⟩ := c93_noise_total (p.rewritten V W a e) τ' q.valid q.stable q.method happ q.expm hF q.times hreach' M'
    ⟨g'.base, hp', g'.amp, g'.ops, g'.traces, g'.times, by rw [h.noise.1]; exact hK⟩ cl cs hcs mcu nse hm T' y'' x'
    (fun t c => U (Fin.cast hN t) (Fin.cast hC c))
  refine ⟨b, b1, ?_⟩
  rw [← hU, d1]
  refine congrArg Except.ok (grad_transport hN hC (fun A A' hA => ?_) hU b3 d3 b4 d4)
  obtain ⟨y, hy⟩ := hreach A
  obtain ⟨z, hz⟩ := hreach' A'
  have := hc y z (rowsOf A) hy (by rw [← hA]; exact hz)
  rw [b2, ← hA, d2] at this
  rw [← hA]
  exact Except.ok.inj this

/-- **C161** The gradient does not depend on units, basis and zero of energy either. -/
theorem c161_basis_gradient (p : SPar n n) (τ τ' : List ℝ) (V : Matrix n n ℂ) (a e : ℝ) (M M' : MC n n)
    (h : Rewritten p τ τ' V Vᴴ a e M M') (happ : p.approx = .none) (hF : p.L.FrechetOk)
    (hreach : ∀ U : Fin (p.xTimes τ).length → Fin p.ctrl.length → ℝ, ∃ y, ampsOf p.cfg τ y = some (rowsOf U))
    (hreach' : ∀ U : Fin (p.xTimes τ').length → Fin (p.rewritten V Vᴴ a e).ctrl.length → ℝ,
      ∃ y, ampsOf (p.rewritten V Vᴴ a e).cfg τ' y = some (rowsOf U))
    (hp : M.procs = .int 1) (hp' : M'.procs = .int 1) (hK : 0 < M.nTraces) (cl : Closest) (mcu nse : Bool) (T : Matrix n n ℂ)
    (y' x y'' x' : Solver.Pulse) (U : Fin (p.xTimes τ).length → Fin p.ctrl.length → ℝ) :
    ∃ g : Fin (p.xTimes τ).length → Fin p.ctrl.length → ℝ,
      mcGrad (n := n) cl none T mcu nse M (p.xTimes τ) y' x (rowsOf U) = .ok (rowsOf g) ∧
      mcGrad (n := n) cl none (V * T * Vᴴ) mcu nse M' ((p.rewritten V Vᴴ a e).xTimes τ') y'' x' (rowsOf U) = .ok (rowsOf g) :=
  h.gradient happ hF hreach hreach' hp hp' hK cl none (by simp) mcu nse (Or.inr rfl) T (V * T * Vᴴ) y' x y'' x'
    (fun y z u hy hz => c161_basis p τ τ' V a e M M' h cl T mcu nse y u hy z hz y' x y'' x') U

/-- **C161** Without change of basis this holds on every set of computational states. -/
theorem c161_units_gradient (p : SPar n n) (τ τ' : List ℝ) (a e : ℝ) (M M' : MC n n)
    (h : Rewritten p τ τ' 1 1 a e M M') (happ : p.approx = .none) (hF : p.L.FrechetOk)
    (hreach : ∀ U : Fin (p.xTimes τ).length → Fin p.ctrl.length → ℝ, ∃ y, ampsOf p.cfg τ y = some (rowsOf U))
    (hreach' : ∀ U : Fin (p.xTimes τ').length → Fin (p.rewritten 1 1 a e).ctrl.length → ℝ,
      ∃ y, ampsOf (p.rewritten 1 1 a e).cfg τ' y = some (rowsOf U))
    (hp : M.procs = .int 1) (hp' : M'.procs = .int 1) (hK : 0 < M.nTraces) (cl : Closest) (cs : Option (List n)) (hcs : cs ≠ some [])
    (mcu nse : Bool) (hm : mcu = false ∨ cs = none) (T : Matrix (CompIdx cs) (CompIdx cs) ℂ)
    (y' x y'' x' : Solver.Pulse) (U : Fin (p.xTimes τ).length → Fin p.ctrl.length → ℝ) :
    ∃ g : Fin (p.xTimes τ).length → Fin p.ctrl.length → ℝ,
      mcGrad cl cs T mcu nse M (p.xTimes τ) y' x (rowsOf U) = .ok (rowsOf g) ∧
      mcGrad cl cs T mcu nse M' ((p.rewritten 1 1 a e).xTimes τ') y'' x' (rowsOf U) = .ok (rowsOf g) :=
  h.gradient happ hF hreach hreach' hp hp' hK cl cs hcs mcu nse hm T T y' x y'' x'
    (fun y z u hy hz => (c161_units p τ τ' a e M M' h cl cs mcu nse hm T [] y u hy z hz y' x y'' x').1) U

/-! ## Cases -/

namespace Ex161

/-- Two noise operators and four traces, all samples different. -/
noncomputable def mc (L : Lapack (Fin 2)) : MC (Fin 2) (Fin 2) :=
  ⟨(qubitPar L .none true).cfg, [!![1, 0; 0, -1], !![0, 1; 1, 0]], .int 1, none, 4, ⟨2, 4, 3, fun j k t => j + 2 * k + 8 * t⟩⟩

theorem given (L : Lapack (Fin 2)) : Given (mc L) (qubitPar L .none true) [1, 2, 3] := ⟨rfl, rfl, rfl, rfl, rfl⟩

theorem herm : ∀ H ∈ [!![1, 0; 0, -1], (!![0, 1; 1, 0] : Matrix (Fin 2) (Fin 2) ℂ)], H.IsHermitian := by
  intro H hH
  simp only [List.mem_cons, List.not_mem_nil, or_false] at hH
  rcases hH with rfl | rfl
  · ext i j; fin_cases i <;> fin_cases j <;> simp
  · ext i j; fin_cases i <;> fin_cases j <;> simp

theorem pulse {L : Lapack (Fin 2)} (hE : L.ExpmOk) : NoisyPulse (qubitPar L .none true) [1, 2, 3] (mc L).hNoise :=
  let h := qubit_system hE
  ⟨h.valid, h.stable, h.method, h.expm, h.times, h.drift, h.ctrl, herm⟩

/-- The operators in opposite order. -/
def ops (L : Lapack (Fin 2)) : Equiv.Perm (Fin (mc L).hNoise.length) := (Equiv.swap 0 1 : Equiv.Perm (Fin 2))

/-- The last trace first. -/
def trs (L : Lapack (Fin 2)) : Equiv.Perm (Fin (mc L).nTraces) := (Equiv.swap 0 3 : Equiv.Perm (Fin 4))

/-- `c161_scaled`, `c161_permuted`, `c161_costs` apply: other units for the first operator, the operators in opposite order. -/
example (L : Lapack (Fin 2)) (cl : Closest) (T : Matrix (Fin 2) (Fin 2) ℂ) :
    mcGrad (n := Fin 2) cl none T false false (scaled (mc L) [10, 1]) [1, 2, 3] [] [] [[1, 2], [3, 4], [5, 6]] =
      mcGrad (n := Fin 2) cl none T false false (mc L) [1, 2, 3] [] [] [[1, 2], [3, 4], [5, 6]] ∧
    mcGrad (n := Fin 2) cl none T false false (permuted (mc L) (ops L)) [1, 2, 3] [] [] [[1, 2], [3, 4], [5, 6]] =
      mcGrad (n := Fin 2) cl none T false false (mc L) [1, 2, 3] [] [] [[1, 2], [3, 4], [5, 6]] :=
  ⟨(c161_costs (mc L) (scaled (mc L) [10, 1]) rfl [1, 2, 3] [] [] [[1, 2], [3, 4], [5, 6]] (c161_scaled (qubitPar L .none true) [1, 2, 3] (qubitPar_valid L _ _) (mc L) (given L) [10, 1] rfl (by simp)
      _ _ (qubitPar_amps L _ _ [[1, 2], [3, 4], [5, 6]] rfl (by simp)) [] []) cl none T false false []).2.1,
    (c161_costs (mc L) (permuted (mc L) (ops L)) rfl [1, 2, 3] [] [] [[1, 2], [3, 4], [5, 6]] (c161_permuted (qubitPar L .none true) [1, 2, 3] (qubitPar_valid L _ _) (mc L) (given L)
      (ops L) _ _ (qubitPar_amps L _ _ [[1, 2], [3, 4], [5, 6]] rfl (by simp)) [] []) cl none T false false []).2.1⟩

/-- Two sources with proportional samples. -/
noncomputable def corr (L : Lapack (Fin 2)) : MC (Fin 2) (Fin 2) :=
  ⟨(qubitPar L .none true).cfg, [!![1, 0; 0, -1], !![0, 1; 1, 0]], .int 1, none, 4, ⟨2, 4, 3, fun j k t => (j + 1) * (k + t)⟩⟩

/-- `c161_correlated` applies. -/
example (L : Lapack (Fin 2)) : fwdNoise (merged (corr L) (fun j => j + 1) fun k t => k + t) [1, 2, 3] [] [] [[1, 2], [3, 4], [5, 6]] =
    fwdNoise (corr L) [1, 2, 3] [] [] [[1, 2], [3, 4], [5, 6]] :=
  (c161_correlated (qubitPar L .none true) [1, 2, 3] (qubitPar_valid L _ _) (corr L) ⟨rfl, rfl, rfl, rfl, rfl⟩ (fun j => j + 1)
    (fun k t => k + t) (fun _ _ _ _ _ _ => rfl) _ _ (qubitPar_amps L _ _ [[1, 2], [3, 4], [5, 6]] rfl (by simp)) [] []).fwd

/-- An initial state with four traces. -/
noncomputable def mcState (L : Lapack (Fin 2)) : MC (Fin 2) (Fin 1) :=
  ⟨(Ex159.statePar L).cfg, [!![1, 0; 0, -1]], .int 1, none, 4, ⟨1, 4, 3, fun _ k t => k + t⟩⟩

theorem givenState (L : Lapack (Fin 2)) : Given (mcState L) (Ex159.statePar L) [1, 2, 3] := ⟨rfl, rfl, rfl, rfl, rfl⟩

theorem ampsState (L : Lapack (Fin 2)) : ampsOf (Ex159.statePar L).cfg [1, 2, 3] [[1, 2], [3, 4], [5, 6]] = some [[1, 2], [3, 4], [5, 6]] :=
  qubitPar_amps L .none true [[1, 2], [3, 4], [5, 6]] rfl (by simp)

/-- `c161_state_costs` applies. -/
example (L : Lapack (Fin 2)) (T : Matrix (Fin 1) (Fin 2) ℂ) :
    mcStateCosts (n := Fin 2) none T true false (scaled (mcState L) [2]) [1, 2, 3] [] [] [[1, 2], [3, 4], [5, 6]] =
      mcStateCosts (n := Fin 2) none T true false (mcState L) [1, 2, 3] [] [] [[1, 2], [3, 4], [5, 6]] :=
  c161_state_costs (mcState L) (scaled (mcState L) [2]) rfl [1, 2, 3] [] [] [[1, 2], [3, 4], [5, 6]] (c161_scaled (Ex159.statePar L) [1, 2, 3]
    ⟨by simp [Ex159.statePar], rfl, by simp [Ex159.statePar]⟩ (mcState L) (givenState L) [2] rfl (by simp) _ _ (ampsState L) [] []) none T true
    false

/-- `c161_order`, `c161_batches` and `c161_gradient` apply: the last trace first, and the traces in batches of one and three. -/
example : ∃ L : Lapack (Fin 2), ∀ (cl : Closest) (T : Matrix (Fin 2) (Fin 2) ℂ) (U : Fin 3 → Fin 2 → ℝ),
    mcCosts (n := Fin 2) cl none T false false (reordered (mc L) (trs L)) [1, 2, 3] [] [] [[1, 2], [3, 4], [5, 6]] =
      mcCosts (n := Fin 2) cl none T false false (mc L) [1, 2, 3] [] [] [[1, 2], [3, 4], [5, 6]] ∧
    (∃ a b, mcCosts (n := Fin 2) cl none T false true (withTraces (mc L) (joined ⟨2, 1, 3, fun j _ t => j + t⟩ ⟨2, 3, 3, fun j k t => j * k + t⟩))
      [1, 2, 3] [] [] [[1, 2], [3, 4], [5, 6]] = .ok ((1 * a + 3 * b) / 4)) ∧
    ∃ a b : Fin 3 → Fin 2 → ℝ, mcGrad (n := Fin 2) cl none T false true (withTraces (mc L)
      (joined ⟨2, 1, 3, fun j _ t => j + t⟩ ⟨2, 3, 3, fun j k t => j * k + t⟩)) [1, 2, 3] [] [] (rowsOf U) =
        .ok (rowsOf fun t c => weighted 1 3 (a t c) (b t c)) := by
  obtain ⟨L, -, -, hE, hF⟩ := lapack_exists (Fin 2)
  refine ⟨L, fun cl T U => ⟨?_, ?_, ?_⟩⟩
  · exact (c161_order (qubitPar L .none true) [1, 2, 3] (mc L) (pulse hE) (given L) (Or.inl rfl) (trs L) cl none T false
      false [] _ _ (qubitPar_amps L _ _ [[1, 2], [3, 4], [5, 6]] rfl (by simp)) [] []).1
  · obtain ⟨⟨a, b, -, -, h⟩, -⟩ := c161_batches (qubitPar L .none true) [1, 2, 3] (mc L) (pulse hE) ⟨2, 1, 3, fun j _ t => j + t⟩
      ⟨2, 3, 3, fun j k t => j * k + t⟩ ⟨rfl, rfl, rfl, rfl, rfl⟩ ⟨rfl, rfl, rfl, rfl, rfl⟩ (by norm_num) (by norm_num) (Or.inl rfl) cl none T
      false true [] _ _ (qubitPar_amps L _ _ [[1, 2], [3, 4], [5, 6]] rfl (by simp)) [] []
    refine ⟨a, b, h.trans ?_⟩
    simp only [weighted]
    norm_num
  · obtain ⟨a, b, -, -, h⟩ := (c161_gradient (qubitPar L .none true) [1, 2, 3] (mc L) (pulse hE) rfl hF
      (fun V => ⟨rowsOf V, qubitPar_amps L _ _ _ (rowsOf_shape V).1 (rowsOf_shape V).2⟩) rfl cl none (by simp) false true (Or.inl rfl) T [] [] U).2
      ⟨2, 1, 3, fun j _ t => j + t⟩ ⟨2, 3, 3, fun j k t => j * k + t⟩ ⟨rfl, rfl, rfl, rfl, rfl⟩ ⟨rfl, rfl, rfl, rfl, rfl⟩ (by norm_num)
      (by norm_num)
    exact ⟨a, b, h⟩

/-- `c161_state_traces` applies. -/
example : ∃ L : Lapack (Fin 2), ∀ T : Matrix (Fin 1) (Fin 2) ℂ,
    mcStateCosts (n := Fin 2) none T true false (reordered (mcState L) (trs L)) [1, 2, 3] [] [] [[1, 2], [3, 4], [5, 6]] =
      mcStateCosts (n := Fin 2) none T true false (mcState L) [1, 2, 3] [] [] [[1, 2], [3, 4], [5, 6]] := by
  obtain ⟨L, -, -, hE, hF⟩ := lapack_exists (Fin 2)
  refine ⟨L, fun T => ?_⟩
  exact (c161_state_traces (Ex159.statePar L) [1, 2, 3] (mcState L) (Ex159.state hE) (Or.inl rfl) none T true false _ _
    (ampsState L) [] []).1 (givenState L) (trs L)

/-- The flip of the qubit. -/
def flip : Matrix (Fin 2) (Fin 2) ℂ := !![0, 1; 1, 0]

theorem flip_unitary : flip ∈ Matrix.unitaryGroup (Fin 2) ℂ := by
  rw [Matrix.mem_unitaryGroup_iff]
  ext i j
  fin_cases i <;> fin_cases j <;> simp [flip, Matrix.mul_apply, Matrix.star_eq_conjTranspose]

/-- The same in units twice as large, other basis and shifted energies. -/
noncomputable def mc' (L : Lapack (Fin 2)) (V : Matrix (Fin 2) (Fin 2) ℂ) : MC (Fin 2) (Fin 2) :=
  ⟨((qubitPar L .none true).rewritten V Vᴴ 2 7).cfg, [rewrite V 2 0 !![1, 0; 0, -1], rewrite V 2 0 !![0, 1; 1, 0], 1], .int 1, none, 4,
    ⟨3, 4, 3, fun j k t => if j < 2 then j + 2 * k + 8 * t else k * t⟩⟩

theorem rewritten {L : Lapack (Fin 2)} (hE : L.ExpmOk) {V : Matrix (Fin 2) (Fin 2) ℂ} (hV : V ∈ Matrix.unitaryGroup (Fin 2) ℂ) :
    Rewritten (qubitPar L .none true) [1, 2, 3] [1 / 2, 2 / 2, 3 / 2] V Vᴴ 2 7 (mc L) (mc' L V) where
  basis := hV
  unit := by norm_num
  times := rfl
  pulse := pulse hE
  hermitian := by
    intro H hH
    simp only [mc', List.mem_cons, List.not_mem_nil, or_false] at hH
    rcases hH with rfl | rfl | rfl
    · exact rewrite_hermitian (herm _ (by simp))
    · exact rewrite_hermitian (herm _ (by simp))
    · exact Matrix.isHermitian_one
  given := given L
  given' := ⟨rfl, rfl, rfl, rfl, rfl⟩
  procs := Or.inl rfl
  procs' := Or.inl rfl
  noise := by
    refine ⟨rfl, fun k t => k * t, fun k t _ _ => ?_⟩
    show ∑ j : Fin 3, (((if (j : Nat) < 2 then ((j : Nat) : ℝ) + 2 * k + 8 * t else k * t : ℝ)) : ℂ) •
      ([rewrite V 2 0 !![1, 0; 0, -1], rewrite V 2 0 !![0, 1; 1, 0], 1] : List (Matrix (Fin 2) (Fin 2) ℂ))[(j : Nat)] =
      rewrite V 2 (k * t) (∑ j : Fin 2, ((((j : Nat) : ℝ) + 2 * k + 8 * t : ℝ) : ℂ) •
        ([!![1, 0; 0, -1], !![0, 1; 1, 0]] : List (Matrix (Fin 2) (Fin 2) ℂ))[(j : Nat)])
    rw [Fin.sum_univ_three, Fin.sum_univ_two]
    simp only [Fin.val_zero, Fin.val_one, Fin.val_two, List.getElem_cons_zero, List.getElem_cons_succ, rewrite_smul]
    rw [if_pos (by norm_num), if_pos (by norm_num), if_neg (by norm_num), rewrite_add]
    unfold rewrite
    push_cast
    rw [zero_smul, add_zero]

theorem amps' (L : Lapack (Fin 2)) (V : Matrix (Fin 2) (Fin 2) ℂ) (y : Solver.Pulse) (hl : y.length = 3) (hr : ∀ row ∈ y, row.length = 2) :
    ampsOf ((qubitPar L .none true).rewritten V Vᴴ 2 7).cfg [1 / 2, 2 / 2, 3 / 2] y = some y :=
  ampsOf_simple L .frechet true .none _ _ _ [1 / 2, 2 / 2, 3 / 2] y (by rintro rfl; simp at hl) hl hr

/-- `c161_basis` and `c161_basis_gradient` apply. -/
example : ∃ L : Lapack (Fin 2), ∀ (cl : Closest) (T : Matrix (Fin 2) (Fin 2) ℂ) (U : Fin 3 → Fin 2 → ℝ),
    mcCosts (n := Fin 2) cl none (flip * T * flipᴴ) false true (mc' L flip) [1 / 2, 2 / 2, 3 / 2] [] [] (rowsOf U) =
      mcCosts (n := Fin 2) cl none T false true (mc L) [1, 2, 3] [] [] (rowsOf U) ∧
    ∃ g : Fin 3 → Fin 2 → ℝ, mcGrad (n := Fin 2) cl none T false true (mc L) [1, 2, 3] [] [] (rowsOf U) = .ok (rowsOf g) ∧
      mcGrad (n := Fin 2) cl none (flip * T * flipᴴ) false true (mc' L flip) [1 / 2, 2 / 2, 3 / 2] [] [] (rowsOf U) = .ok (rowsOf g) := by
  obtain ⟨L, -, -, hE, hF⟩ := lapack_exists (Fin 2)
  refine ⟨L, fun cl T U => ⟨?_, ?_⟩⟩
  · exact c161_basis _ _ _ flip 2 7 (mc L) (mc' L flip) (rewritten hE flip_unitary) cl T false true _ _
      (qubitPar_amps L _ _ _ (rowsOf_shape U).1 (rowsOf_shape U).2) _ (amps' L flip _ (rowsOf_shape U).1 (rowsOf_shape U).2) [] [] [] []
  · exact c161_basis_gradient _ _ _ flip 2 7 (mc L) (mc' L flip) (rewritten hE flip_unitary) rfl hF
      (fun V => ⟨rowsOf V, qubitPar_amps L _ _ _ (rowsOf_shape V).1 (rowsOf_shape V).2⟩)
      (fun V => ⟨rowsOf V, amps' L flip _ (rowsOf_shape V).1 (rowsOf_shape V).2⟩) rfl rfl (by norm_num [mc]) cl false true T [] [] [] [] U

/-- `c161_units` and `c161_units_gradient` apply. -/
example : ∃ L : Lapack (Fin 2), ∀ (cl : Closest) (T : Matrix (Fin 1) (Fin 1) ℂ) (U : Fin 3 → Fin 2 → ℝ), ∃ M' : MC (Fin 2) (Fin 2),
    mcLeakCosts [(0 : Fin 2)] M' [1 / 2, 2 / 2, 3 / 2] [] [] (rowsOf U) = mcLeakCosts [(0 : Fin 2)] (mc L) [1, 2, 3] [] [] (rowsOf U) ∧
    ∃ g : Fin 3 → Fin 2 → ℝ, mcGrad (n := Fin 2) cl (some [0]) T false true (mc L) [1, 2, 3] [] [] (rowsOf U) = .ok (rowsOf g) ∧
      mcGrad (n := Fin 2) cl (some [0]) T false true M' [1 / 2, 2 / 2, 3 / 2] [] [] (rowsOf U) = .ok (rowsOf g) := by
  obtain ⟨L, -, -, hE, hF⟩ := lapack_exists (Fin 2)
  refine ⟨L, fun cl T U => ⟨mc' L 1, ?_⟩⟩
  have h := rewritten hE (one_mem (Matrix.unitaryGroup (Fin 2) ℂ))
  have ha := fun (V : Fin 3 → Fin 2 → ℝ) => amps' L 1 _ (rowsOf_shape V).1 (rowsOf_shape V).2
  rw [Matrix.conjTranspose_one] at h ha
  constructor
  · exact (c161_units _ _ _ 2 7 (mc L) (mc' L 1) h cl none false true (Or.inl rfl) 1 [(0 : Fin 2)] _ _
      (qubitPar_amps L _ _ _ (rowsOf_shape U).1 (rowsOf_shape U).2) _ (ha U) [] [] [] []).2
  · exact c161_units_gradient _ _ _ 2 7 (mc L) (mc' L 1) h rfl hF
      (fun V => ⟨rowsOf V, qubitPar_amps L _ _ _ (rowsOf_shape V).1 (rowsOf_shape V).2⟩)
      (fun V => ⟨rowsOf V, ha V⟩) rfl rfl (by norm_num [mc]) cl (some [0]) (by simp) false true (Or.inl rfl) T [] [] [] [] U

/-- The state in units twice as large, other basis and shifted energies. -/
noncomputable def mcState' (L : Lapack (Fin 2)) : MC (Fin 2) (Fin 1) :=
  ⟨((Ex159.statePar L).rewritten flip 1 2 7).cfg, [rewrite flip 2 0 !![1, 0; 0, -1]], .int 1, none, 4, ⟨1, 4, 3, fun _ k t => k + t⟩⟩

theorem rewrittenState {L : Lapack (Fin 2)} (hE : L.ExpmOk) :
    Rewritten (Ex159.statePar L) [1, 2, 3] [1 / 2, 2 / 2, 3 / 2] flip 1 2 7 (mcState L) (mcState' L) where
  basis := flip_unitary
  unit := by norm_num
  times := rfl
  pulse := Ex159.state hE
  hermitian := by
    intro H hH
    simp only [mcState', List.mem_cons, List.not_mem_nil, or_false] at hH
    subst hH
    exact rewrite_hermitian (herm _ (by simp))
  given := givenState L
  given' := ⟨rfl, rfl, rfl, rfl, rfl⟩
  procs := Or.inl rfl
  procs' := Or.inl rfl
  noise := by
    refine ⟨rfl, fun k t => 0, fun k t _ _ => ?_⟩
    show ∑ j : Fin 1, (((k : ℝ) + t : ℝ) : ℂ) • ([rewrite flip 2 0 !![1, 0; 0, -1]] : List (Matrix (Fin 2) (Fin 2) ℂ))[(j : Nat)] =
      rewrite flip 2 0 (∑ j : Fin 1, (((k : ℝ) + t : ℝ) : ℂ) • ([!![1, 0; 0, -1]] : List (Matrix (Fin 2) (Fin 2) ℂ))[(j : Nat)])
    rw [Fin.sum_univ_one, Fin.sum_univ_one]
    simp only [Fin.val_zero, List.getElem_cons_zero, rewrite_smul]

/-- `c161_basis_state` applies. -/
example : ∃ L : Lapack (Fin 2), ∀ T : Matrix (Fin 1) (Fin 2) ℂ,
    mcStateCosts (n := Fin 2) none (T * flipᴴ) true true (mcState' L) [1 / 2, 2 / 2, 3 / 2] [] [] [[1, 2], [3, 4], [5, 6]] =
      mcStateCosts (n := Fin 2) none T true true (mcState L) [1, 2, 3] [] [] [[1, 2], [3, 4], [5, 6]] := by
  obtain ⟨L, -, -, hE, hF⟩ := lapack_exists (Fin 2)
  refine ⟨L, fun T => ?_⟩
  exact c161_basis_state _ _ _ flip 2 7 (mcState L) (mcState' L) (rewrittenState hE) T true true _ _ (ampsState L) _
    (ampsOf_simple L .frechet true .none _ _ _ [1 / 2, 2 / 2, 3 / 2] [[1, 2], [3, 4], [5, 6]] (by simp) rfl
      (by simp [SPar.rewritten, Ex159.statePar])) [] [] [] []

end Ex161

end Verif.Sim
