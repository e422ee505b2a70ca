import Verif.Cost.Estimator
import Verif.Cost.State
import Verif.Sim.Crosstalk

/-!
# C159: the noise costs of states and of leakage estimate the average over the noise

`StateNoiseInfidelity` (cost_functions.py:1106-1172) and `IncoherentLeakageError` (cost_functions.py:1694-1747) on a
`SchroedingerSMonteCarlo` solver with randomly drawn noise traces: means, variances and large deviations.
-/

namespace Verif.Sim
open Verif Verif.Operator Verif.Solver Verif.Cost Matrix MeasureTheory ProbabilityTheory

/-! ## Model -/

section
variable {n : Type} [Fintype n] [DecidableEq n]

/-- `StateNoiseInfidelity.costs()` (cost_functions.py:1146-1172) with a Monte Carlo solver: the reads of the forward propagators
without and with noise. The code reads the former only if systematic errors are neglected; since the Monte Carlo solver computes
both at once this makes no difference to the value. -/
noncomputable def mcStateCosts (cs : Option (List n)) (T : Matrix (Fin 1) (CompIdx cs) ℂ) (rescale nse : Bool) (M : MC n (Fin 1))
    (times : List ℝ) (y x u : Pulse) : Except PyErr ℝ := do
  let clean ← specFwd M.base times u
  let noise ← fwdNoise M times y x u
  stateNoiseCosts cs T rescale nse clean noise

/-- `IncoherentLeakageError.costs()` (cost_functions.py:1728-1747) with a Monte Carlo solver. -/
noncomputable def mcLeakCosts (l : List n) (M : MC n n) (times : List ℝ) (y x u : Pulse) : Except PyErr ℝ := do
  let noise ← fwdNoise M times y x u
  incoherentLeakCosts l noise

/-- `LeakageLiouville.costs()` with `monte_carlo=True` (cost_functions.py:1823-1865) with a Monte Carlo solver. -/
noncomputable def mcLiouvilleLeakCosts (l : List n) (M : MC n n) (times : List ℝ) (y x u : Pulse) : Except PyErr ℝ := do
  let noise ← fwdNoise M times y x u
  leakLiouvilleMC l noise

/-! ## Specification -/

/-- The infidelity of the final state of one realisation of the noise `z`, with the target bra or with the state reached without
noise. -/
noncomputable def traceStateInfidelity (cs : Option (List n)) (T : Matrix (Fin 1) (CompIdx cs) ℂ) (nse : Bool) (p : SPar n (Fin 1))
    (hN : List (Matrix n n ℂ)) (τ : List ℝ) (u : Pulse) (z : Fin hN.length → Fin (p.xTimes τ).length → ℝ) : ℝ :=
  1 - ‖∑ i, (if nse then star (noisyFinal p hN τ u 0 (sel cs i) 0) else T 0 i) * noisyFinal p hN τ u z (sel cs i) 0‖ ^ 2

/-- The leakage out of the computational states `l` of one realisation of the noise: the probability to leave them, averaged over
them. -/
noncomputable def traceLeakage (l : List n) (p : SPar n n) (hN : List (Matrix n n ℂ)) (τ : List ℝ) (u : Pulse)
    (z : Fin hN.length → Fin (p.xTimes τ).length → ℝ) : ℝ :=
  1 - (∑ a : Fin l.length, ∑ b : Fin l.length, ‖noisyFinal p hN τ u z (l.get b) (l.get a)‖ ^ 2) / l.length

/-- What is assumed of the system: the solver exponentiates exactly, and the Hamiltonians are Hermitian. -/
structure NoisyPulse {m : Type} (p : SPar n m) (τ : List ℝ) (hN : List (Matrix n n ℂ)) : Prop where
  valid : p.Valid τ
  stable : Stable p.cfg
  method : p.method = .frechet
  expm : p.L.ExpmOk
  times : p.xTimes τ ≠ []
  drift : ∀ H ∈ p.drift, H.IsHermitian
  ctrl : ∀ H ∈ p.ctrl, H.IsHermitian
  noise : ∀ H ∈ hN, H.IsHermitian

/-- The random number `c` estimates the average of `f` over the noise `ν` from `K` independent traces: its mean is the average, its
variance is that of `f` divided by the number of traces and at most `1 / (4 K)`, and errors of at least `ε` have a probability of
at most `2 exp (-2 K ε²)`. -/
structure Estimates {Ω α : Type*} [MeasurableSpace Ω] [MeasurableSpace α] (μ : Measure Ω) (ν : Measure α) (K : Nat) (c : Ω → ℝ)
    (f : α → ℝ) : Prop where
  integrable : Integrable c μ
  mean : ∫ ω, c ω ∂μ = ∫ z, f z ∂ν
  variance : Var[c; μ] = Var[f; ν] / K
  spread : Var[c; μ] ≤ 1 / (4 * K)
  tail : ∀ ε, 0 ≤ ε → μ.real {ω | ε ≤ |c ω - ∫ z, f z ∂ν|} ≤ 2 * Real.exp (-2 * K * ε ^ 2)

/-! ## Lemmas -/

theorem iid_estimates {Ω : Type*} [MeasurableSpace Ω] {μ : Measure Ω} [IsProbabilityMeasure μ] {A N K : Nat} (hK : 0 < K) {s : Ω → Arr3}
    {ν : Measure (Fin A → Fin N → ℝ)} (hs : IidTraces μ s A K N ν) {f : (Fin A → Fin N → ℝ) → ℝ} (hf : Measurable f)
    (h01 : ∀ z, f z ∈ Set.Icc (0 : ℝ) 1) : Estimates μ ν K (fun ω => (∑ k : Fin K, f (traceOf A N (s ω) k)) / K) f := by
  have hK' : (0 : ℝ) < K := by exact_mod_cast hK
  have hvar := iid_variance hK hs.law hs.indep hf h01
  have : IsProbabilityMeasure ν := ((hs.law ⟨0, hK⟩).isProbabilityMeasure_iff).mp inferInstance
  have hv4 : Var[f; ν] ≤ 1 / 4 := by
    have := variance_le_sq_of_bounded (μ := ν) (ae_of_all _ h01) hf.aemeasurable
    refine this.trans (le_of_eq (by norm_num))
  refine ⟨?_, iid_mean hK hs.law hf h01, hvar, ?_, fun ε hε => iid_concentration hK hs.law hs.indep hf h01 hε⟩
  · refine Integrable.div_const (integrable_finsetSum _ fun k _ => ?_) _
    exact Integrable.of_mem_Icc 0 1 (hf.comp_aemeasurable (hs.law k).aemeasurable) (ae_of_all _ fun ω => h01 _)
  · rw [hvar, div_le_div_iff₀ hK' (by positivity)]
    have := mul_le_mul_of_nonneg_right hv4 hK'.le
    linarith

variable {m : Type}

/-- The final states with and without noise, serial or parallel. -/
theorem mc_finals (p : SPar n m) (τ : List ℝ) (hN : List (Matrix n n ℂ)) (h : NoisyPulse p τ hN) (M : MC n m) (hb : M.base = p.cfg)
    (hH : M.hNoise = hN) (hp : M.ProcsOk) (ha : M.noiseAmp = none)
    (h0 : M.samples.d0 = hN.length) (h1 : M.samples.d1 = M.nTraces) (h2 : M.samples.d2 = (p.xTimes τ).length)
    (y u y' x : Pulse) (hu : ampsOf p.cfg τ y = some u) :
    ∃ fc f, specFwd M.base (p.xTimes τ) u = .ok fc ∧ fwdNoise M (p.xTimes τ) y' x u = .ok f ∧
      fc.getLast? = some (noisyFinal p hN τ u 0) ∧ f.length = M.nTraces ∧
      f.map List.getLast? = List.ofFn fun k : Fin M.nTraces => some (noisyFinal p hN τ u (traceOf _ _ M.samples k)) := by
  subst hH
  obtain ⟨ps, f, r, -, e2, -, -, l2, -, e4⟩ := c94_traces p τ h.valid y u y' x hu h.times M hb hp ha h0 h1 h2
  have hr := ready_fresh p τ y u hu
  obtain ⟨fc, s1, c1, c2, -⟩ := hr.fwd h.valid h.stable
  have k1 := (readFwd_ok h.stable hr.inv).1
  rw [hr.times, c1] at k1
  have hc : specFwd M.base (p.xTimes τ) u = .ok fc := by rw [hb]; exact k1.symm
  have hlast := final_last c2
  rw [clean_final p τ h.method h.expm M.hNoise u] at hlast
  refine ⟨fc, f, hc, e2, hlast, l2, List.ext_getElem (by simp [l2]) fun k h1' h2' => ?_⟩
  have hk : k < M.nTraces := by simpa using h2'
  obtain ⟨_, fk, _, -, a1, -, -, a2, -⟩ := e4 k hk
  have hr' := ready_fresh (p.noisy M.hNoise M.samples k) τ y u hu
  obtain ⟨fc', s1', c1', c2', -⟩ := hr'.fwd (SPar.noisy_valid h.valid _ _ _) (SPar.noisy_stable h.stable _ _ _)
  rw [c1'] at a2
  simp only [Except.ok.injEq] at a2
  rw [List.getElem?_eq_getElem (by rw [l2]; exact hk)] at a1
  simp only [List.getElem_map, List.getElem_ofFn]
  rw [Option.some.inj a1, ← a2, final_last c2', noisy_final p τ h.valid h.method h.expm]

theorem getLastD_of {α : Type} {l : List α} {a d : α} (h : l.getLast? = some a) : l.getLastD d = a := by
  cases l with
  | nil => simp at h
  | cons b l => simpa [List.getLast?_cons] using h

omit [Fintype n] [DecidableEq n] in
/-- The last elements as a list. -/
theorem finals_map {f : List (List (Matrix n m ℂ))} {K : Nat} {F : Fin K → Matrix n m ℂ}
    (h : f.map List.getLast? = List.ofFn fun k => some (F k)) (g : Matrix n m ℂ → ℝ) :
    (f.map fun l => g (l.getLastD 0)) = List.ofFn fun k => g (F k) := by
  have e : (f.map fun l => g (l.getLastD 0)) = (f.map List.getLast?).map fun o => g (o.getD 0) := by
    rw [List.map_map]
    refine List.map_congr_left fun l _ => ?_
    simp [List.getLastD_eq_getLast?]
  rw [e, h, List.map_ofFn]
  rfl

omit [Fintype n] [DecidableEq n] in
theorem finals_mem {f : List (List (Matrix n m ℂ))} {K : Nat} {F : Fin K → Matrix n m ℂ}
    (h : f.map List.getLast? = List.ofFn fun k => some (F k)) {l : List (Matrix n m ℂ)} (hl : l ∈ f) : ∃ k, l.getLast? = some (F k) := by
  have : l.getLast? ∈ f.map List.getLast? := List.mem_map_of_mem hl
  rw [h] at this
  obtain ⟨k, hk⟩ := (List.mem_ofFn' _ _).mp this
  exact ⟨k, hk.symm⟩

omit [DecidableEq n] in
theorem foldl_mul_init (l : List (Matrix n n ℂ)) (I : Matrix n n ℂ) (ψ : Matrix n m ℂ) :
    l.foldl (fun F P => P * F) (I * ψ) = l.foldl (fun F P => P * F) I * ψ := by
  induction l generalizing I with
  | nil => rfl
  | cons P l ih => rw [List.foldl_cons, List.foldl_cons, ← Matrix.mul_assoc, ih]

/-- The evolution of a state is a unitary applied to it. -/
theorem noisyFinal_state (p : SPar n m) (τ : List ℝ) (hN : List (Matrix n n ℂ)) (h : NoisyPulse p τ hN) (u : Pulse)
    (z : Fin hN.length → Fin (p.xTimes τ).length → ℝ) :
    ∃ U ∈ Matrix.unitaryGroup n ℂ, noisyFinal p hN τ u z = U * p.init := by
  let q : SPar n n := ⟨p.L, p.method, p.skew, p.calcDeriv, p.approx, 1, p.drift, p.ctrl, p.tf, p.xTimes, p.amp⟩
  refine ⟨noisyFinal q hN τ u z, noisyFinal_unitary q hN τ ⟨h.valid.1, h.valid.2.1, h.valid.2.2⟩ h.drift h.ctrl h.noise (one_mem _) u z, ?_⟩
  show (List.ofFn (noisyStep p hN τ u z)).foldl (fun F P => P * F) p.init =
    (List.ofFn (noisyStep p hN τ u z)).foldl (fun F P => P * F) 1 * p.init
  rw [← foldl_mul_init, Matrix.one_mul]

/-- The value of `StateNoiseInfidelity`. -/
theorem mcStateCosts_value (p : SPar n (Fin 1)) (τ : List ℝ) (hN : List (Matrix n n ℂ)) (h : NoisyPulse p τ hN) (cs : Option (List n))
    (T : Matrix (Fin 1) (CompIdx cs) ℂ) (rescale nse : Bool) (M : MC n (Fin 1)) (hb : M.base = p.cfg) (hH : M.hNoise = hN) (hp : M.ProcsOk)
    (ha : M.noiseAmp = none) (h0 : M.samples.d0 = hN.length) (h1 : M.samples.d1 = M.nTraces) (h2 : M.samples.d2 = (p.xTimes τ).length)
    (y u y' x : Pulse) (hu : ampsOf p.cfg τ y = some u) :
    mcStateCosts cs T rescale nse M (p.xTimes τ) y' x u =
      .ok ((∑ k : Fin M.nTraces, traceStateInfidelity cs T nse p hN τ u (traceOf _ _ M.samples k)) / M.nTraces) := by
  obtain ⟨fc, f, e1, e2, e3, e4, e5⟩ := mc_finals p τ hN h M hb hH hp ha h0 h1 h2 y u y' x hu
  unfold mcStateCosts
  rw [e1, e2]
  show stateNoiseCosts cs T rescale nse fc f = _
  rw [c80_value cs T rescale nse fc _ e3 f fun l hl h0 => by
    obtain ⟨k, hk⟩ := finals_mem e5 hl
    rw [h0] at hk
    simp at hk]
  rw [finals_map e5 fun ψ => 1 - ‖∑ i, (if nse then star (noisyFinal p hN τ u 0 (sel cs i) 0) else T 0 i) * ψ (sel cs i) 0‖ ^ 2]
  unfold mean traceStateInfidelity
  rw [List.sum_ofFn, List.length_ofFn]

theorem traceLeakage_eq (l : List n) (p : SPar n n) (hN : List (Matrix n n ℂ)) (τ : List ℝ) (u : Pulse)
    (z : Fin hN.length → Fin (p.xTimes τ).length → ℝ) : traceLeakage l p hN τ u z = leakOf l (noisyFinal p hN τ u z) := by
  unfold traceLeakage leakOf
  rw [trace_eq_sum]
  rfl

/-- The value of `IncoherentLeakageError`. -/
theorem mcLeakCosts_value (p : SPar n n) (τ : List ℝ) (hN : List (Matrix n n ℂ)) (h : NoisyPulse p τ hN) (l : List n)
    (M : MC n n) (hb : M.base = p.cfg) (hH : M.hNoise = hN) (hp : M.ProcsOk)
    (ha : M.noiseAmp = none) (h0 : M.samples.d0 = hN.length) (h1 : M.samples.d1 = M.nTraces) (h2 : M.samples.d2 = (p.xTimes τ).length)
    (y u y' x : Pulse) (hu : ampsOf p.cfg τ y = some u) :
    mcLeakCosts l M (p.xTimes τ) y' x u =
      .ok ((∑ k : Fin M.nTraces, traceLeakage l p hN τ u (traceOf _ _ M.samples k)) / M.nTraces) := by
  obtain ⟨fc, f, -, e2, -, e4, e5⟩ := mc_finals p τ hN h M hb hH hp ha h0 h1 h2 y u y' x hu
  unfold mcLeakCosts
  rw [e2]
  show incoherentLeakCosts l f = _
  unfold incoherentLeakCosts
  rw [allOk_map f _ (fun f => leakOf l (f.getLastD 0))]
  · show Except.ok (mean _) = _
    rw [finals_map e5 fun U => leakOf l U]
    unfold mean
    rw [List.sum_ofFn, List.length_ofFn]
    simp only [traceLeakage_eq]
  · intro fk hfk
    obtain ⟨k, hk⟩ := finals_mem e5 hfk
    rw [last_ok hk, getLastD_of hk]
    rfl

theorem traceStateInfidelity_diff (cs : Option (List n)) (T : Matrix (Fin 1) (CompIdx cs) ℂ) (nse : Bool) (p : SPar n (Fin 1))
    (hN : List (Matrix n n ℂ)) (τ : List ℝ) (u : Pulse) : Differentiable ℝ (traceStateInfidelity cs T nse p hN τ u) := by
  have hd : MatDiff fun z => noisyFinal p hN τ u z :=
    noisyFinal_diff p hN τ (fun _ => u) (fun z => z) (fun t => MatDiff.const _) fun j t =>
      differentiable_pi.mp (differentiable_pi.mp differentiable_id j) t
  unfold traceStateInfidelity
  exact Differentiable.const_sub (differentiable_norm_sq (Differentiable.fun_sum fun i _ => (hd _ _).const_mul _)) _

theorem traceLeakage_diff (l : List n) (p : SPar n n) (hN : List (Matrix n n ℂ)) (τ : List ℝ) (u : Pulse) :
    Differentiable ℝ (traceLeakage l p hN τ u) := by
  have hd : MatDiff fun z => noisyFinal p hN τ u z :=
    noisyFinal_diff p hN τ (fun _ => u) (fun z => z) (fun t => MatDiff.const _) fun j t =>
      differentiable_pi.mp (differentiable_pi.mp differentiable_id j) t
  unfold traceLeakage
  simp only [div_eq_mul_inv]
  exact Differentiable.const_sub (Differentiable.mul_const (Differentiable.fun_sum fun a _ => Differentiable.fun_sum fun b _ =>
    differentiable_norm_sq (hd _ _)) _) _

theorem traceStateInfidelity_range (cs : Option (List n)) (hcs : ∀ l, cs = some l → l.Nodup) (T : Matrix (Fin 1) (CompIdx cs) ℂ)
    (nse : Bool) (hT : nse = true ∨ ∑ i, ‖T 0 i‖ ^ 2 ≤ 1) (p : SPar n (Fin 1)) (hN : List (Matrix n n ℂ)) (τ : List ℝ)
    (h : NoisyPulse p τ hN) (hi : ∑ i, ‖p.init i 0‖ ^ 2 = 1) (u : Pulse) (z : Fin hN.length → Fin (p.xTimes τ).length → ℝ) :
    traceStateInfidelity cs T nse p hN τ u z ∈ Set.Icc (0 : ℝ) 1 := by
  have hU : ∀ z, ∑ i, ‖noisyFinal p hN τ u z (sel cs i) 0‖ ^ 2 ≤ 1 := by
    intro z
    obtain ⟨U, hU, e⟩ := noisyFinal_state p τ hN h u z
    refine (sum_sel_le cs hcs fun i => noisyFinal p hN τ u z i 0).trans (le_of_eq ?_)
    rw [e]
    exact (unitary_column hU p.init).trans hi
  have hb : ∑ i, ‖if nse then star (noisyFinal p hN τ u 0 (sel cs i) 0) else T 0 i‖ ^ 2 ≤ 1 := by
    rcases hT with rfl | hT
    · simpa using hU 0
    · cases nse
      · simpa using hT
      · simpa using hU 0
  have h5 := (norm_sum_le Finset.univ fun i => (if nse then star (noisyFinal p hN τ u 0 (sel cs i) 0) else T 0 i) *
    noisyFinal p hN τ u z (sel cs i) 0).trans (le_of_eq (Finset.sum_congr rfl fun i _ => norm_mul _ _))
  have h6 := Finset.sum_mul_sq_le_sq_mul_sq Finset.univ (fun i => ‖if nse then star (noisyFinal p hN τ u 0 (sel cs i) 0) else T 0 i‖)
    fun i => ‖noisyFinal p hN τ u z (sel cs i) 0‖
  have h7 := (pow_le_pow_left₀ (norm_nonneg _) h5 2).trans (h6.trans
    (mul_le_mul hb (hU z) (Finset.sum_nonneg fun i _ => by positivity) zero_le_one))
  unfold traceStateInfidelity
  constructor
  · linarith
  · have := sq_nonneg ‖∑ i, (if nse then star (noisyFinal p hN τ u 0 (sel cs i) 0) else T 0 i) * noisyFinal p hN τ u z (sel cs i) 0‖
    linarith

theorem traceLeakage_range (l : List n) (hl : l.Nodup) (hne : l ≠ []) (p : SPar n n) (hN : List (Matrix n n ℂ)) (τ : List ℝ)
    (h : NoisyPulse p τ hN) (hi : p.init ∈ Matrix.unitaryGroup n ℂ) (u : Pulse) (z : Fin hN.length → Fin (p.xTimes τ).length → ℝ) :
    traceLeakage l p hN τ u z ∈ Set.Icc (0 : ℝ) 1 := by
  rw [traceLeakage_eq]
  exact leakOf_range (noisyFinal_unitary p hN τ h.valid h.drift h.ctrl h.noise hi u z) l hl hne

/-! ## The property -/

variable {Ω : Type*} [MeasurableSpace Ω] {μ : Measure Ω} [IsProbabilityMeasure μ]

/-- **C159** `StateNoiseInfidelity` computed from randomly drawn independent traces estimates the infidelity of the final state
averaged over the noise. -/
theorem c159_state (p : SPar n (Fin 1)) (τ : List ℝ) (hN : List (Matrix n n ℂ)) (h : NoisyPulse p τ hN)
    (hi : ∑ i, ‖p.init i 0‖ ^ 2 = 1) (cs : Option (List n)) (hcs : ∀ l, cs = some l → l.Nodup) (T : Matrix (Fin 1) (CompIdx cs) ℂ)
    (rescale nse : Bool) (hT : nse = true ∨ ∑ i, ‖T 0 i‖ ^ 2 ≤ 1) (y u y' x : Pulse) (hu : ampsOf p.cfg τ y = some u) {K : Nat}
    (hK : 0 < K) (procs : Procs) (hp : (⟨p.cfg, hN, procs, none, K, ⟨0, 0, 0, fun _ _ _ => 0⟩⟩ : MC n (Fin 1)).ProcsOk) (s : Ω → Arr3)
    {ν : Measure (Fin hN.length → Fin (p.xTimes τ).length → ℝ)} (hs : IidTraces μ s hN.length K (p.xTimes τ).length ν) :
    ∃ c : Ω → ℝ, (∀ ω, mcStateCosts cs T rescale nse ⟨p.cfg, hN, procs, none, K, s ω⟩ (p.xTimes τ) y' x u = .ok (c ω)) ∧
      Estimates μ ν K c (traceStateInfidelity cs T nse p hN τ u) :=
  ⟨_, fun ω => mcStateCosts_value p τ hN h cs T rescale nse ⟨p.cfg, hN, procs, none, K, s ω⟩ rfl rfl hp rfl (hs.ops ω) (hs.traces ω)
      (hs.times ω) y u y' x hu,
    iid_estimates hK hs (traceStateInfidelity_diff cs T nse p hN τ u).continuous.measurable
      (traceStateInfidelity_range cs hcs T nse hT p hN τ h hi u)⟩

/-- **C159** `IncoherentLeakageError` computed from randomly drawn independent traces estimates the leakage averaged over the noise,
and the Monte Carlo mode of `LeakageLiouville` returns the same number. -/
theorem c159_leakage (p : SPar n n) (τ : List ℝ) (hN : List (Matrix n n ℂ)) (h : NoisyPulse p τ hN)
    (hi : p.init ∈ Matrix.unitaryGroup n ℂ) (l : List n) (hl : l.Nodup) (hne : l ≠ []) (y u y' x : Pulse)
    (hu : ampsOf p.cfg τ y = some u) {K : Nat}
    (hK : 0 < K) (procs : Procs) (hp : (⟨p.cfg, hN, procs, none, K, ⟨0, 0, 0, fun _ _ _ => 0⟩⟩ : MC n n).ProcsOk) (s : Ω → Arr3)
    {ν : Measure (Fin hN.length → Fin (p.xTimes τ).length → ℝ)} (hs : IidTraces μ s hN.length K (p.xTimes τ).length ν) :
    ∃ c : Ω → ℝ, (∀ ω, mcLeakCosts l ⟨p.cfg, hN, procs, none, K, s ω⟩ (p.xTimes τ) y' x u = .ok (c ω)) ∧
      (∀ ω, mcLiouvilleLeakCosts l ⟨p.cfg, hN, procs, none, K, s ω⟩ (p.xTimes τ) y' x u = .ok (c ω)) ∧
      Estimates μ ν K c (traceLeakage l p hN τ u) := by
  refine ⟨_, fun ω => mcLeakCosts_value p τ hN h l ⟨p.cfg, hN, procs, none, K, s ω⟩ rfl rfl hp rfl (hs.ops ω) (hs.traces ω)
      (hs.times ω) y u y' x hu, fun ω => ?_,
    iid_estimates hK hs (traceLeakage_diff l p hN τ u).continuous.measurable (traceLeakage_range l hl hne p hN τ h hi u)⟩
  rw [← mcLeakCosts_value p τ hN h l ⟨p.cfg, hN, procs, none, K, s ω⟩ rfl rfl hp rfl (hs.ops ω) (hs.traces ω)
      (hs.times ω) y u y' x hu]
  obtain ⟨fc, f, -, e2, -, e4, e5⟩ := mc_finals p τ hN h ⟨p.cfg, hN, procs, none, K, s ω⟩ rfl rfl hp rfl (hs.ops ω) (hs.traces ω)
    (hs.times ω) y u y' x hu
  unfold mcLeakCosts mcLiouvilleLeakCosts
  rw [e2]
  show leakLiouvilleMC l f = incoherentLeakCosts l f
  obtain ⟨c, -, a1, a2⟩ := c49_trace_average l hl hne f (fun h0 => by rw [h0] at e4; exact hK.ne e4) fun g hg => by
    obtain ⟨k, hk⟩ := finals_mem e5 hg
    exact ⟨_, hk, noisyFinal_unitary p hN τ h.valid h.drift h.ctrl h.noise hi u _⟩
  rw [a1, a2]

/-- **C159** With quasi-static noise in Monte Carlo mode both are the average over a static noise Hamiltonian whose strengths are
independent normal variables with the requested standard deviations. -/
theorem c159_quasi_static {randn : Ω → Nat → Nat → Nat → ℝ} (hw : Noise.WhiteNoise μ randn) (e : ℝ → ℝ) (hp : Noise.Heap) (g : Noise.QuasiStatic)
    (hmode : g.mode = .monteCarlo) (ht : 0 < g.nTraces) (hN : List (Matrix n n ℂ)) (hl : (hp.get g.sd).length = hN.length) (hne : hN ≠ []) :
    ∃ s : Ω → Noise.Arr3, (∀ ω, g.draw e hp (fun i j => randn ω i j 0) = .ok (s ω)) ∧
      (∀ (p : SPar n (Fin 1)) (τ : List ℝ), NoisyPulse p τ hN → ∑ i, ‖p.init i 0‖ ^ 2 = 1 → g.nSamples = (p.xTimes τ).length →
        ∀ (cs : Option (List n)), (∀ l, cs = some l → l.Nodup) → ∀ (T : Matrix (Fin 1) (CompIdx cs) ℂ) (rescale nse : Bool),
        (nse = true ∨ ∑ i, ‖T 0 i‖ ^ 2 ≤ 1) → ∀ y u y' x : Pulse, ampsOf p.cfg τ y = some u →
        ∃ c : Ω → ℝ, (∀ ω, mcStateCosts cs T rescale nse ⟨p.cfg, hN, .int 1, none, g.nTraces, Noise.arrOf (s ω)⟩ (p.xTimes τ) y' x u =
          .ok (c ω)) ∧ Integrable c μ ∧ ∫ ω, c ω ∂μ = ∫ v, traceStateInfidelity cs T nse p hN τ u (fun j _ => v j)
            ∂(Measure.pi fun j : Fin hN.length => gaussianReal 0 (NNReal.mk ((hp.get g.sd).getD j 0 ^ 2) (sq_nonneg _)))) ∧
      (∀ (p : SPar n n) (τ : List ℝ), NoisyPulse p τ hN → p.init ∈ Matrix.unitaryGroup n ℂ → g.nSamples = (p.xTimes τ).length →
        ∀ l : List n, l.Nodup → l ≠ [] → ∀ y u y' x : Pulse, ampsOf p.cfg τ y = some u →
        ∃ c : Ω → ℝ, (∀ ω, mcLeakCosts l ⟨p.cfg, hN, .int 1, none, g.nTraces, Noise.arrOf (s ω)⟩ (p.xTimes τ) y' x u = .ok (c ω)) ∧
          Integrable c μ ∧ ∫ ω, c ω ∂μ = ∫ v, traceLeakage l p hN τ u (fun j _ => v j)
            ∂(Measure.pi fun j : Fin hN.length => gaussianReal 0 (NNReal.mk ((hp.get g.sd).getD j 0 ^ 2) (sq_nonneg _)))) := by
  obtain ⟨s, h1, -, h2⟩ := Noise.c111_quasi_static hw e hp g hmode ht hl (List.length_pos_iff.mpr hne)
  refine ⟨s, h1, ?_, ?_⟩
  · intro p τ h hi hs cs hcs T rescale nse hT y u y' x hu
    rw [hs] at h2
    obtain ⟨c, h3, h4⟩ := c159_state p τ hN h hi cs hcs T rescale nse hT y u y' x hu ht (.int 1) (.inl rfl) _ h2
    refine ⟨c, h3, h4.integrable, h4.mean.trans ?_⟩
    unfold Noise.quasiStaticLaw
    rw [integral_map (Measurable.aemeasurable (by fun_prop))]
    exact (traceStateInfidelity_diff cs T nse p hN τ u).continuous.aestronglyMeasurable
  · intro p τ h hi hs l hl' hne' y u y' x hu
    rw [hs] at h2
    obtain ⟨c, h3, -, h4⟩ := c159_leakage p τ hN h hi l hl' hne' y u y' x hu ht (.int 1) (.inl rfl) _ h2
    refine ⟨c, h3, h4.integrable, h4.mean.trans ?_⟩
    unfold Noise.quasiStaticLaw
    rw [integral_map (Measurable.aemeasurable (by fun_prop))]
    exact (traceLeakage_diff l p hN τ u).continuous.aestronglyMeasurable

end

/-! ## Concrete cases -/

namespace Ex159

/-- A qubit with noise on the drift. -/
theorem qubit {L : Lapack (Fin 2)} (hE : L.ExpmOk) : NoisyPulse (qubitPar L .none true) [1, 2, 3] [!![1, 0; 0, -1]] :=
  let h := qubit_system hE
  ⟨h.valid, h.stable, h.method, h.expm, h.times, h.drift, h.ctrl, h.noise⟩

/-- The same with an initial state. -/
noncomputable def statePar (L : Lapack (Fin 2)) : SPar (Fin 2) (Fin 1) :=
  ⟨L, .frechet, true, true, .none, !![1; 0], [!![1, 0; 0, -1], !![1, 0; 0, -1], !![1, 0; 0, -1]],
    [!![0, 1; 1, 0], !![0, -Complex.I; Complex.I, 0]], idTf, id, idAmp⟩

theorem state {L : Lapack (Fin 2)} (hE : L.ExpmOk) : NoisyPulse (statePar L) [1, 2, 3] [!![1, 0; 0, -1]] :=
  let h := qubit_system hE
  ⟨⟨by simp [statePar], rfl, by simp [statePar]⟩, Or.inl ⟨rfl, rfl⟩, rfl, hE, by simp [statePar], h.drift, h.ctrl, h.noise⟩

/-- A hundred traces of quasi-static noise: errors above 1/5 of the state infidelity and of the leakage out of the first state are
rare. -/
example : ∃ (L : Lapack (Fin 2)) (μ : Measure (Nat × Nat × Nat → ℝ)) (s : (Nat × Nat × Nat → ℝ) → Noise.Arr3)
    (c d : (Nat × Nat × Nat → ℝ) → ℝ),
    (∀ ω, mcStateCosts (n := Fin 2) none !![0, 1] true false ⟨(statePar L).cfg, [!![1, 0; 0, -1]], .int 1, none, 100, Noise.arrOf (s ω)⟩
      [1, 2, 3] [] [] [[1, 2], [3, 4], [5, 6]] = .ok (c ω)) ∧
    (∀ ω, mcLeakCosts [(0 : Fin 2)] ⟨(qubitPar L .none true).cfg, [!![1, 0; 0, -1]], .int 1, none, 100, Noise.arrOf (s ω)⟩
      [1, 2, 3] [] [] [[1, 2], [3, 4], [5, 6]] = .ok (d ω)) ∧
    μ.real {ω | 1 / 5 ≤ |c ω - ∫ ω, c ω ∂μ|} ≤ 2 * Real.exp (-8) ∧ μ.real {ω | 1 / 5 ≤ |d ω - ∫ ω, d ω ∂μ|} ≤ 2 * Real.exp (-8) := by
  obtain ⟨L, -, -, hE, -⟩ := lapack_exists (Fin 2)
  obtain ⟨μ, hμ, hw⟩ := Noise.whiteNoise_exists
  obtain ⟨s, h1, -, h2⟩ := Noise.c111_quasi_static hw (fun x => x) [[1 / 10]] ⟨0, 3, 100, none, true, .monteCarlo⟩ rfl (by norm_num)
    (A := 1) rfl (by norm_num)
  obtain ⟨c, h3, h4⟩ := c159_state (statePar L) [1, 2, 3] [!![1, 0; 0, -1]] (state hE) (by simp [statePar]) none (by simp) !![0, 1] true
    false (.inr (show ∑ i : Fin 2, ‖(!![0, 1] : Matrix (Fin 1) (Fin 2) ℂ) 0 i‖ ^ 2 ≤ 1 by simp)) _ _ [] []
    (show ampsOf (statePar L).cfg [1, 2, 3] [[1, 2], [3, 4], [5, 6]] = some [[1, 2], [3, 4], [5, 6]] from
      qubitPar_amps L .none true [[1, 2], [3, 4], [5, 6]] rfl (by simp)) (by norm_num : 0 < 100)
    (.int 1) (.inl rfl) _ h2
  obtain ⟨d, h5, -, h6⟩ := c159_leakage (qubitPar L .none true) [1, 2, 3] [!![1, 0; 0, -1]] (qubit hE) (one_mem _) [(0 : Fin 2)] (by simp)
    (by simp) _ _ [] [] (qubitPar_amps L _ _ [[1, 2], [3, 4], [5, 6]] rfl (by simp)) (by norm_num : 0 < 100)
    (.int 1) (.inl rfl) _ h2
  refine ⟨L, μ, s, c, d, h3, h5, ?_, ?_⟩
  · have := h4.tail (1 / 5) (by norm_num)
    rw [← h4.mean] at this
    refine this.trans (le_of_eq ?_)
    norm_num
  · have := h6.tail (1 / 5) (by norm_num)
    rw [← h6.mean] at this
    refine this.trans (le_of_eq ?_)
    norm_num

/-- `c159_quasi_static` applies. -/
example : ∃ (L : Lapack (Fin 2)) (μ : Measure (Nat × Nat × Nat → ℝ)) (c : (Nat × Nat × Nat → ℝ) → ℝ),
    ∫ ω, c ω ∂μ = ∫ v, traceStateInfidelity none !![0, 1] true (statePar L) [!![1, 0; 0, -1]] [1, 2, 3] [[1, 2], [3, 4], [5, 6]]
      (fun j _ => v j) ∂(Measure.pi fun j : Fin 1 => gaussianReal 0 (NNReal.mk ([(1 / 10 : ℝ)].getD j 0 ^ 2) (sq_nonneg _))) := by
  obtain ⟨L, -, -, hE, -⟩ := lapack_exists (Fin 2)
  obtain ⟨μ, hμ, hw⟩ := Noise.whiteNoise_exists
  obtain ⟨s, -, h, -⟩ := c159_quasi_static hw (fun x => x) [[1 / 10]] ⟨0, 3, 100, none, true, .monteCarlo⟩ rfl (by norm_num)
    [!![1, 0; 0, -1]] rfl (by simp)
  obtain ⟨c, -, -, hc⟩ := h (statePar L) [1, 2, 3] (state hE) (by simp [statePar]) rfl none (by simp) !![0, 1] true true (.inl rfl) _ _ [] []
    (show ampsOf (statePar L).cfg [1, 2, 3] [[1, 2], [3, 4], [5, 6]] = some [[1, 2], [3, 4], [5, 6]] from
      qubitPar_amps L .none true [[1, 2], [3, 4], [5, 6]] rfl (by simp))
  exact ⟨L, μ, c, hc⟩

end Ex159

end Verif.Sim
