import Verif.Cost.NoiseTotal
import Verif.Noise.Stationary
import Verif.Noise.QuasiStatic
import Mathlib.Probability.Moments.SubGaussian
import Mathlib.Probability.Moments.Variance
import Mathlib.Probability.Distributions.Gaussian.HasGaussianLaw.Independence

/-!
# C111: the noise infidelity estimates the average over the noise

`OperationNoiseInfidelity` on a `SchroedingerSMonteCarlo` solver is a random number, because the noise traces are drawn at
random.  Its mean is the infidelity averaged over the noise, its variance falls like the inverse number of traces, and large
deviations are exponentially unlikely.
-/

namespace Verif.Cost
open Verif Verif.Operator Verif.Solver Matrix MeasureTheory ProbabilityTheory

/-! ## Means of independent random numbers between zero and one -/

section Iid
variable {Ω α : Type*} [MeasurableSpace Ω] [MeasurableSpace α] {μ : Measure Ω} [IsProbabilityMeasure μ] {ν : Measure α}
  {K : Nat} {Z : Fin K → Ω → α}

theorem iid_mean (hK : 0 < K) (hl : ∀ k, HasLaw (Z k) ν μ) {f : α → ℝ} (hf : Measurable f) (h01 : ∀ z, f z ∈ Set.Icc (0 : ℝ) 1) :
    ∫ ω, (∑ k, f (Z k ω)) / K ∂μ = ∫ z, f z ∂ν := by
  have hi : ∀ k, Integrable (fun ω => f (Z k ω)) μ := fun k =>
    Integrable.of_mem_Icc 0 1 (hf.comp_aemeasurable (hl k).aemeasurable) (ae_of_all _ fun ω => h01 _)
  have hK' : (K : ℝ) ≠ 0 := by exact_mod_cast hK.ne'
  rw [integral_div, integral_finsetSum _ fun k _ => hi k]
  have : ∀ k, ∫ ω, f (Z k ω) ∂μ = ∫ z, f z ∂ν := fun k => (hl k).integral_comp hf.aestronglyMeasurable
  simp only [this, Finset.sum_const, Finset.card_univ, Fintype.card_fin, nsmul_eq_mul]
  field_simp

theorem iid_variance (hK : 0 < K) (hl : ∀ k, HasLaw (Z k) ν μ) (hi : iIndepFun Z μ) {f : α → ℝ} (hf : Measurable f)
    (h01 : ∀ z, f z ∈ Set.Icc (0 : ℝ) 1) : Var[fun ω => (∑ k, f (Z k ω)) / K; μ] = Var[f; ν] / K := by
  have hm : ∀ k, AEMeasurable (fun ω => f (Z k ω)) μ := fun k => hf.comp_aemeasurable (hl k).aemeasurable
  have hL : ∀ k, MemLp (fun ω => f (Z k ω)) 2 μ := fun k =>
    MemLp.of_bound (hm k).aestronglyMeasurable 1 (ae_of_all _ fun ω => by
      rw [Real.norm_eq_abs, abs_le]; have := h01 (Z k ω); constructor <;> linarith [this.1, this.2])
  have hind : iIndepFun (fun k ω => f (Z k ω)) μ := hi.comp (fun _ => f) fun _ => hf
  have hK' : (K : ℝ) ≠ 0 := by exact_mod_cast hK.ne'
  have e : (fun ω => (∑ k, f (Z k ω)) / K) = fun ω => (1 / (K : ℝ)) * (∑ k, fun ω => f (Z k ω)) ω := by
    funext ω; simp [div_eq_inv_mul]
  rw [e, variance_const_mul, IndepFun.variance_sum (fun k _ => hL k) (fun i _ j _ hij => hind.indepFun hij)]
  have : ∀ k, Var[fun ω => f (Z k ω); μ] = Var[f; ν] := fun k => by
    have := (hl k).map_eq
    rw [← this, variance_map (hf.aemeasurable) (hl k).aemeasurable]
    rfl
  simp only [this, Finset.sum_const, Finset.card_univ, Fintype.card_fin, nsmul_eq_mul]
  field_simp

theorem iid_tail (hK : 0 < K) (hl : ∀ k, HasLaw (Z k) ν μ) (hi : iIndepFun Z μ) {f : α → ℝ} (hf : Measurable f)
    (h01 : ∀ z, f z ∈ Set.Icc (0 : ℝ) 1) {ε : ℝ} (hε : 0 ≤ ε) :
    μ.real {ω | ε ≤ (∑ k, f (Z k ω)) / K - ∫ z, f z ∂ν} ≤ Real.exp (-2 * K * ε ^ 2) := by
  have hm : ∀ k, AEMeasurable (fun ω => f (Z k ω)) μ := fun k => hf.comp_aemeasurable (hl k).aemeasurable
  have hE : ∀ k, ∫ ω, f (Z k ω) ∂μ = ∫ z, f z ∂ν := fun k => (hl k).integral_comp hf.aestronglyMeasurable
  have hK' : (0 : ℝ) < K := by exact_mod_cast hK
  have hsub := fun k => hasSubgaussianMGF_of_mem_Icc (hm k) (ae_of_all μ fun ω => h01 (Z k ω))
  have hind : iIndepFun (fun k ω => f (Z k ω) - ∫ ω, f (Z k ω) ∂μ) μ :=
    hi.comp (fun k z => f z - ∫ ω, f (Z k ω) ∂μ) fun k => hf.sub_const _
  have h := HasSubgaussianMGF.measure_sum_ge_le_of_iIndepFun hind (s := Finset.univ) (fun k _ => hsub k)
    (mul_nonneg hK'.le hε)
  have hset : {ω | ε ≤ (∑ k, f (Z k ω)) / K - ∫ z, f z ∂ν} =
      {ω | (K : ℝ) * ε ≤ ∑ k, (f (Z k ω) - ∫ ω, f (Z k ω) ∂μ)} := by
    ext ω
    simp only [Set.mem_ofPred_eq, hE, Finset.sum_sub_distrib, Finset.sum_const, Finset.card_univ, Fintype.card_fin, nsmul_eq_mul]
    rw [le_sub_iff_add_le, le_div_iff₀ hK', le_sub_iff_add_le]
    constructor <;> intro h <;> linarith
  rw [hset]
  refine h.trans (le_of_eq ?_)
  congr 1
  simp
  field_simp

/-- A bound for deviations in both directions. -/
theorem iid_concentration (hK : 0 < K) (hl : ∀ k, HasLaw (Z k) ν μ) (hi : iIndepFun Z μ) {f : α → ℝ} (hf : Measurable f)
    (h01 : ∀ z, f z ∈ Set.Icc (0 : ℝ) 1) {ε : ℝ} (hε : 0 ≤ ε) :
    μ.real {ω | ε ≤ |(∑ k, f (Z k ω)) / K - ∫ z, f z ∂ν|} ≤ 2 * Real.exp (-2 * K * ε ^ 2) := by
  have : IsProbabilityMeasure ν := ((hl ⟨0, hK⟩).isProbabilityMeasure_iff).mp inferInstance
  have h1 := iid_tail hK hl hi hf h01 hε
  have h2 := iid_tail hK hl hi (f := fun z => 1 - f z) (hf.const_sub 1) (fun z => by
    have := h01 z; constructor <;> linarith [this.1, this.2]) hε
  have hint : ∫ z, (1 - f z) ∂ν = 1 - ∫ z, f z ∂ν := by
    rw [integral_sub (integrable_const _) (Integrable.of_mem_Icc 0 1 hf.aemeasurable (ae_of_all _ h01))]
    simp
  have hK' : (0 : ℝ) < K := by exact_mod_cast hK
  have hset : {ω | ε ≤ |(∑ k, f (Z k ω)) / K - ∫ z, f z ∂ν|} =
      {ω | ε ≤ (∑ k, f (Z k ω)) / K - ∫ z, f z ∂ν} ∪ {ω | ε ≤ (∑ k, (1 - f (Z k ω))) / K - ∫ z, (1 - f z) ∂ν} := by
    ext ω
    have : (∑ k, (1 - f (Z k ω))) / K = 1 - (∑ k, f (Z k ω)) / K := by
      simp only [Finset.sum_sub_distrib, Finset.sum_const, Finset.card_univ, Fintype.card_fin, nsmul_eq_mul]
      field_simp
    simp only [Set.mem_ofPred_eq, Set.mem_union, this, hint, le_abs]
    constructor <;> rintro (h | h)
    · exact .inl h
    · exact .inr (by linarith)
    · exact .inl h
    · exact .inr (by linarith)
  rw [hset]
  refine (measureReal_union_le _ _).trans ?_
  linarith

end Iid

/-! ## Specification -/

section
variable {n m : Type} [Fintype n] [DecidableEq n]

/-- One time step under the Hamiltonian of the pulse plus the noise operators weighted with the noise `z` (operator, time). -/
noncomputable def noisyStep (p : SPar n m) (hN : List (Matrix n n ℂ)) (τ : List ℝ) (u : Pulse)
    (z : Fin hN.length → Fin (p.xTimes τ).length → ℝ) (t : Fin (p.xTimes τ).length) : Matrix n n ℂ :=
  NormedSpace.exp ((((p.xTimes τ)[t] : ℝ) : ℂ) • (-Complex.I) •
    (hamiltonian (p.drift.getD t 0) p.ctrl (u.getD t []) + ∑ j, ((z j t : ℝ) : ℂ) • hN[j]))

/-- The time evolution with the noise `z`. -/
noncomputable def noisyFinal (p : SPar n m) (hN : List (Matrix n n ℂ)) (τ : List ℝ) (u : Pulse)
    (z : Fin hN.length → Fin (p.xTimes τ).length → ℝ) : Matrix n m ℂ :=
  (List.ofFn (noisyStep p hN τ u z)).foldl (fun F P => P * F) p.init

/-- The infidelity of one realisation of the noise, with the target or with the evolution without noise. -/
noncomputable def traceInfidelity (cl : Closest) (cs : Option (List n)) (T : Matrix (CompIdx cs) (CompIdx cs) ℂ) (mcu nse : Bool)
    (p : SPar n n) (hN : List (Matrix n n ℂ)) (τ : List ℝ) (u : Pulse) (z : Fin hN.length → Fin (p.xTimes τ).length → ℝ) : ℝ :=
  1 - entFid cl cs (if nse then truncTo cl cs mcu (noisyFinal p hN τ u 0) else T) (noisyFinal p hN τ u z) mcu

/-- The samples of trace `k`. -/
def traceOf (a b : Nat) (s : Arr3) (k : Nat) : Fin a → Fin b → ℝ := fun j t => s.val j k t

/-! ## The cost of a sample -/

theorem propOf_exp (p : SPar n m) (hmeth : p.method = .frechet) (hE : p.L.ExpmOk) (G : Matrix n n ℂ) (σ : ℝ) :
    propOf p.cfg G σ = NormedSpace.exp ((σ : ℂ) • G) := by
  unfold propOf dexpProp expProp
  have : p.cfg.method = .frechet := hmeth
  rw [this, ← hE]
  split <;> rfl

theorem noisy_final (p : SPar n m) (τ : List ℝ) (hv : p.Valid τ) (hmeth : p.method = .frechet) (hE : p.L.ExpmOk)
    (hN : List (Matrix n n ℂ)) (s : Arr3) (k : Nat) (u : Pulse) :
    (p.noisy hN s k).final τ u = noisyFinal p hN τ u (traceOf _ _ s k) := by
  unfold SPar.final SPar.steps noisyFinal
  congr 1
  refine List.ext_getElem (by simp [SPar.noisy]) fun t h1 h2 => ?_
  have ht : t < (p.xTimes τ).length := by simpa using h2
  have htd : t < p.drift.length := by rw [hv.2.1]; exact ht
  rw [List.getElem_map, List.getElem_range, List.getElem_ofFn]
  unfold SPar.step noisyStep
  rw [propOf_exp (p.noisy hN s k) hmeth hE]
  have hd : (p.noisy hN s k).drift.getD t 0 = p.drift.getD t 0 + noiseHam hN s k t := by
    simp [SPar.noisy, List.getD_eq_getElem?_getD, htd]
  rw [hd, show (p.noisy hN s k).ctrl = p.ctrl from rfl, hamiltonian_add_drift,
    show (p.noisy hN s k).xTimes = p.xTimes from rfl, List.getD_eq_getElem _ _ ht]
  rfl

theorem clean_final (p : SPar n m) (τ : List ℝ) (hmeth : p.method = .frechet) (hE : p.L.ExpmOk)
    (hN : List (Matrix n n ℂ)) (u : Pulse) : p.final τ u = noisyFinal p hN τ u 0 := by
  unfold SPar.final SPar.steps noisyFinal
  congr 1
  refine List.ext_getElem (by simp) fun t h1 h2 => ?_
  have ht : t < (p.xTimes τ).length := by simpa using h2
  rw [List.getElem_map, List.getElem_range, List.getElem_ofFn]
  unfold SPar.step noisyStep
  rw [propOf_exp _ hmeth hE, List.getD_eq_getElem _ _ ht]
  simp

/-- The value of the cost function, serial or parallel. -/
theorem mcCosts_value (p : SPar n n) (τ : List ℝ) (hv : p.Valid τ) (hst : Stable p.cfg) (hmeth : p.method = .frechet)
    (hE : p.L.ExpmOk) (hne : p.xTimes τ ≠ []) (M : MC n n) (hb : M.base = p.cfg) (hp : M.ProcsOk) (ha : M.noiseAmp = none)
    (h0 : M.samples.d0 = M.hNoise.length) (h1 : M.samples.d1 = M.nTraces) (h2 : M.samples.d2 = (p.xTimes τ).length)
    (cl : Closest) (cs : Option (List n)) (T : Matrix (CompIdx cs) (CompIdx cs) ℂ) (mcu nse : Bool) (y u y' x : Pulse)
    (hu : ampsOf p.cfg τ y = some u) :
    mcCosts cl cs T mcu nse M (p.xTimes τ) y' x u =
      .ok ((∑ k : Fin M.nTraces, traceInfidelity cl cs T mcu nse p M.hNoise τ u (traceOf _ _ M.samples k)) / M.nTraces) := by
  obtain ⟨ps, f, r, -, e2, -, -, l2, -, e4⟩ := c94_traces p τ hv y u y' x hu hne M hb hp ha h0 h1 h2
  have hr := ready_fresh p τ y u hu
  obtain ⟨fc, s1, c1, c2, -⟩ := hr.fwd hv hst
  have k1 := (readFwd_ok hst hr.inv).1
  rw [hr.times, c1] at k1
  have hc : specFwd M.base (p.xTimes τ) u = .ok fc := by rw [hb]; exact k1.symm
  have hlast := final_last c2
  have hfk : ∀ k, k < M.nTraces → ∃ fk, f[k]? = some fk ∧ fk.getLast? = some (noisyFinal p M.hNoise τ u (traceOf _ _ M.samples k)) := by
    intro k hk
    obtain ⟨_, fk, _, -, a1, -, -, a2, -⟩ := e4 k hk
    refine ⟨fk, a1, ?_⟩
    have hr' := ready_fresh (p.noisy M.hNoise M.samples k) τ y u hu
    obtain ⟨fc', s1', c1', c2', -⟩ := hr'.fwd (SPar.noisy_valid hv _ _ _) (SPar.noisy_stable hst _ _ _)
    rw [c1'] at a2
    simp only [Except.ok.injEq] at a2
    rw [← a2, final_last c2', noisy_final p τ hv hmeth hE]
  unfold mcCosts
  rw [hc, e2]
  simp only [bind, Except.bind]
  unfold noiseCosts
  have : effTarget cl cs T mcu nse fc = .ok (if nse then truncTo cl cs mcu (noisyFinal p M.hNoise τ u 0) else T) := by
    unfold effTarget
    rw [clean_final p τ hmeth hE M.hNoise u] at hlast
    cases nse
    · rfl
    · simp only [if_true, last_ok hlast]; rfl
  rw [this]
  simp only [bind, Except.bind]
  have hmap : f = (List.finRange M.nTraces).map fun k : Fin M.nTraces => f[(k : Nat)]'(by rw [l2]; exact k.2) := by
    refine List.ext_getElem (by simp [l2]) fun i h1 h2 => ?_
    simp
  rw [hmap, List.map_map, allOk_map (List.finRange M.nTraces) _ (fun k : Fin M.nTraces =>
    traceInfidelity cl cs T mcu nse p M.hNoise τ u (traceOf _ _ M.samples k))]
  · simp only [pure, Except.pure, mean, List.length_map, List.length_finRange]
    rw [← List.sum_ofFn, List.ofFn_eq_map]
  · intro k _
    obtain ⟨fk, a1, a2⟩ := hfk k k.2
    rw [List.getElem?_eq_getElem (by rw [l2]; exact k.2)] at a1
    have hl : (f[(k : Nat)]'(by rw [l2]; exact k.2)).getLast? = some (noisyFinal p M.hNoise τ u (traceOf _ _ M.samples k)) := by
      rw [Option.some.inj a1]; exact a2
    simp only [Function.comp, last_ok hl]
    rfl

/-! ## The infidelity is a continuous function of the noise with values between zero and one -/

theorem noisyStep_diff {E : Type} [NormedAddCommGroup E] [NormedSpace ℝ E] (p : SPar n m) (hN : List (Matrix n n ℂ)) (τ : List ℝ)
    (u : E → Pulse) (z : E → Fin hN.length → Fin (p.xTimes τ).length → ℝ) (t : Fin (p.xTimes τ).length)
    (hu : MatDiff fun e => hamiltonian (p.drift.getD t 0) p.ctrl ((u e).getD t [])) (hz : ∀ j t, Differentiable ℝ fun e => z e j t) :
    MatDiff fun e => noisyStep p hN τ (u e) (z e) t := by
  unfold noisyStep
  refine MatDiff.exp fun i j => ?_
  simp only [Matrix.smul_apply, Matrix.add_apply, Matrix.sum_apply, smul_eq_mul]
  refine Differentiable.const_mul (Differentiable.const_mul ((hu i j).add (Differentiable.fun_sum fun k _ => ?_)) _) _
  exact Differentiable.mul_const (Complex.ofRealCLM.differentiable.comp (hz k t)) _

theorem noisyFinal_diff {E : Type} [NormedAddCommGroup E] [NormedSpace ℝ E] [Fintype m] (p : SPar n m) (hN : List (Matrix n n ℂ)) (τ : List ℝ)
    (u : E → Pulse) (z : E → Fin hN.length → Fin (p.xTimes τ).length → ℝ)
    (hu : ∀ t : Fin (p.xTimes τ).length, MatDiff fun e => hamiltonian (p.drift.getD t 0) p.ctrl ((u e).getD t []))
    (hz : ∀ j t, Differentiable ℝ fun e => z e j t) : MatDiff fun e => noisyFinal p hN τ (u e) (z e) := by
  have := foldl_diff (List.ofFn fun t e => noisyStep p hN τ (u e) (z e) t) (by
    intro P hP
    obtain ⟨t, rfl⟩ := (List.mem_ofFn' _ _).mp hP
    exact noisyStep_diff p hN τ u z t (hu t) hz) (fun _ => p.init) (MatDiff.const _)
  simpa only [List.map_ofFn, Function.comp_def, noisyFinal] using this

/-- The infidelity of a trace is a differentiable function of the noise. -/
theorem traceInfidelity_diff (cl : Closest) (cs : Option (List n)) (T : Matrix (CompIdx cs) (CompIdx cs) ℂ) (mcu nse : Bool)
    (hm : mcu = false ∨ cs = none) (p : SPar n n) (hN : List (Matrix n n ℂ)) (τ : List ℝ) (u : Pulse) :
    Differentiable ℝ (traceInfidelity cl cs T mcu nse p hN τ u) := by
  unfold traceInfidelity entFid
  simp only [div_eq_mul_inv]
  refine Differentiable.const_sub (Differentiable.mul_const (Differentiable.mul_const ?_ _) _) _
  refine differentiable_norm_sq (MatDiff.trace (MatDiff.mul (MatDiff.const _) (truncTo_diff cl cs mcu hm ?_)))
  exact noisyFinal_diff p hN τ (fun _ => u) (fun z => z) (fun t => MatDiff.const _) fun j t =>
    differentiable_pi.mp (differentiable_pi.mp differentiable_id j) t

theorem norm_trace_sq_le {k : Type} [Fintype k] (A B : Matrix k k ℂ) :
    ‖(Aᴴ * B).trace‖ ^ 2 ≤ (Aᴴ * A).trace.re * (Bᴴ * B).trace.re := by
  have hs : ∀ C : Matrix k k ℂ, (Cᴴ * C).trace.re = ∑ q : k × k, ‖C q.2 q.1‖ ^ 2 := by
    intro C
    rw [Fintype.sum_prod_type, Matrix.trace, Complex.re_sum]
    refine Finset.sum_congr rfl fun j _ => ?_
    rw [Matrix.diag_apply, Matrix.mul_apply, Complex.re_sum]
    refine Finset.sum_congr rfl fun i _ => ?_
    rw [Matrix.conjTranspose_apply, ← Complex.normSq_eq_norm_sq, Complex.normSq_apply]
    simp
  have ht : (Aᴴ * B).trace = ∑ q : k × k, star (A q.2 q.1) * B q.2 q.1 := by
    rw [Fintype.sum_prod_type, Matrix.trace]
    refine Finset.sum_congr rfl fun j _ => ?_
    rw [Matrix.diag_apply, Matrix.mul_apply]
    rfl
  rw [hs, hs, ht]
  calc ‖∑ q : k × k, star (A q.2 q.1) * B q.2 q.1‖ ^ 2 ≤ (∑ q : k × k, ‖A q.2 q.1‖ * ‖B q.2 q.1‖) ^ 2 := by
        gcongr
        refine (norm_sum_le _ _).trans (le_of_eq (Finset.sum_congr rfl fun q _ => ?_))
        rw [norm_mul, norm_star]
    _ ≤ _ := Finset.sum_mul_sq_le_sq_mul_sq _ _ _

theorem trunc_norm_le (cl : Closest) (cs : Option (List n)) (mcu : Bool) (hm : mcu = false ∨ cs = none)
    (hnd : ∀ l, cs = some l → l.Nodup) {U : Matrix n n ℂ} (hU : U ∈ Matrix.unitaryGroup n ℂ) :
    ((truncTo cl cs mcu U)ᴴ * truncTo cl cs mcu U).trace.re ≤ dim cs := by
  cases cs with
  | none =>
    show (Uᴴ * U).trace.re ≤ ((Fintype.card n : ℕ) : ℝ)
    rw [conjTranspose_mul_unitary hU]
    simp
  | some l =>
    rcases hm with rfl | h
    · have := trace_submatrix_le hU l (hnd l rfl)
      have hd : dim (some l) = l.length := by
        show ((Fintype.card (Fin l.length) : ℕ) : ℝ) = _
        rw [Fintype.card_fin]
      rw [hd]
      exact this
    · simp at h

/-- A target that is a unitary has the norm of the identity. -/
theorem target_norm_le (cs : Option (List n)) {T : Matrix (CompIdx cs) (CompIdx cs) ℂ}
    (hT : T ∈ Matrix.unitaryGroup (CompIdx cs) ℂ) : (Tᴴ * T).trace.re ≤ dim cs := by
  have : Tᴴ * T = 1 := (Matrix.mem_unitaryGroup_iff'.mp hT)
  rw [this]
  simp [dim]

theorem noisyFinal_unitary (p : SPar n n) (hN : List (Matrix n n ℂ)) (τ : List ℝ) (hv : p.Valid τ)
    (hd : ∀ H ∈ p.drift, H.IsHermitian)
    (hc : ∀ H ∈ p.ctrl, H.IsHermitian) (hn : ∀ H ∈ hN, H.IsHermitian) (hi : p.init ∈ Matrix.unitaryGroup n ℂ) (u : Pulse)
    (z : Fin hN.length → Fin (p.xTimes τ).length → ℝ) : noisyFinal p hN τ u z ∈ Matrix.unitaryGroup n ℂ := by
  have hs : ∀ t, noisyStep p hN τ u z t ∈ Matrix.unitaryGroup n ℂ := by
    intro t
    unfold noisyStep
    have hH : (hamiltonian (p.drift.getD t 0) p.ctrl (u.getD t []) + ∑ j, ((z j t : ℝ) : ℂ) • hN[j]).IsHermitian := by
      refine Matrix.IsHermitian.add (hamiltonian_isHermitian _ ?_ hc) ?_
      · have : (t : Nat) < p.drift.length := by rw [hv.2.1]; exact t.2
        rw [List.getD_eq_getElem _ _ this]
        exact hd _ (List.getElem_mem _)
      · unfold Matrix.IsHermitian
        rw [Matrix.conjTranspose_sum]
        refine Finset.sum_congr rfl fun j _ => ?_
        have hj : (hN[j])ᴴ = hN[j] := hn _ (List.getElem_mem j.2)
        rw [Matrix.conjTranspose_smul, hj]
        simp
    refine exp_skew_unitary ?_
    rw [Matrix.conjTranspose_smul, Matrix.conjTranspose_smul, hH]
    simp only [star_neg, Complex.star_def, Complex.conj_I, neg_neg, Complex.conj_ofReal, neg_smul, smul_neg]
  unfold noisyFinal
  have : ∀ (l : List (Matrix n n ℂ)) (I : Matrix n n ℂ), (∀ P ∈ l, P ∈ Matrix.unitaryGroup n ℂ) → I ∈ Matrix.unitaryGroup n ℂ →
      l.foldl (fun F P => P * F) I ∈ Matrix.unitaryGroup n ℂ := by
    intro l
    induction l with
    | nil => intro I _ h; exact h
    | cons P l ih =>
      intro I h1 h2
      exact ih _ (fun Q hQ => h1 Q (List.mem_cons_of_mem _ hQ)) (mul_mem (h1 P List.mem_cons_self) h2)
  refine this _ _ (fun P hP => ?_) hi
  obtain ⟨t, rfl⟩ := (List.mem_ofFn' _ _).mp hP
  exact hs t

/-- The infidelity of a trace lies between zero and one. -/
theorem traceInfidelity_range (cl : Closest) (cs : Option (List n)) (hcs : Nonempty (CompIdx cs)) (hnd : ∀ l, cs = some l → l.Nodup)
    (T : Matrix (CompIdx cs) (CompIdx cs) ℂ) (mcu nse : Bool) (hm : mcu = false ∨ cs = none)
    (hT : nse = true ∨ T ∈ Matrix.unitaryGroup (CompIdx cs) ℂ) (p : SPar n n) (hN : List (Matrix n n ℂ)) (τ : List ℝ)
    (hv : p.Valid τ) (hd : ∀ H ∈ p.drift, H.IsHermitian) (hc : ∀ H ∈ p.ctrl, H.IsHermitian) (hn : ∀ H ∈ hN, H.IsHermitian)
    (hi : p.init ∈ Matrix.unitaryGroup n ℂ) (u : Pulse) (z : Fin hN.length → Fin (p.xTimes τ).length → ℝ) :
    traceInfidelity cl cs T mcu nse p hN τ u z ∈ Set.Icc (0 : ℝ) 1 := by
  have hU := fun z => trunc_norm_le cl cs mcu hm hnd (noisyFinal_unitary p hN τ hv hd hc hn hi u z)
  have hdim : 0 < dim cs := by unfold dim; exact_mod_cast Fintype.card_pos
  have hA : ((if nse then truncTo cl cs mcu (noisyFinal p hN τ u 0) else T)ᴴ *
      (if nse then truncTo cl cs mcu (noisyFinal p hN τ u 0) else T)).trace.re ≤ dim cs := by
    rcases hT with rfl | hT
    · exact hU 0
    · cases nse
      · exact target_norm_le cs hT
      · exact hU 0
  have h := norm_trace_sq_le (if nse then truncTo cl cs mcu (noisyFinal p hN τ u 0) else T) (truncTo cl cs mcu (noisyFinal p hN τ u z))
  have hpos : ∀ C : Matrix (CompIdx cs) (CompIdx cs) ℂ, 0 ≤ (Cᴴ * C).trace.re := fun C => by
    have := frobSq_nonneg C 0
    rwa [frobSq_eq, sub_zero] at this
  have h2 := h.trans (mul_le_mul hA (hU z) (hpos _) hdim.le)
  have : entFid cl cs (if nse then truncTo cl cs mcu (noisyFinal p hN τ u 0) else T) (noisyFinal p hN τ u z) mcu ≤ 1 := by
    unfold entFid
    rw [div_div, div_le_one (by positivity)]
    exact h2
  have h0 : 0 ≤ entFid cl cs (if nse then truncTo cl cs mcu (noisyFinal p hN τ u 0) else T) (noisyFinal p hN τ u z) mcu := by
    unfold entFid
    positivity
  unfold traceInfidelity
  exact ⟨by linarith, by linarith⟩

/-! ## Independent traces -/

/-- A random sample with traces that are independent and have the same distribution `ν`. -/
structure IidTraces {Ω : Type*} [MeasurableSpace Ω] (μ : Measure Ω) (s : Ω → Arr3) (A K N : Nat)
    (ν : Measure (Fin A → Fin N → ℝ)) : Prop where
  ops : ∀ ω, (s ω).d0 = A
  traces : ∀ ω, (s ω).d1 = K
  times : ∀ ω, (s ω).d2 = N
  law : ∀ k : Fin K, HasLaw (fun ω => traceOf A N (s ω) k) ν μ
  indep : iIndepFun (fun (k : Fin K) ω => traceOf A N (s ω) k) μ

/-- What is assumed of the system and of the cost function. -/
structure NoisySystem (p : SPar n n) (τ : List ℝ) (hN : List (Matrix n n ℂ)) (cs : Option (List n))
    (T : Matrix (CompIdx cs) (CompIdx cs) ℂ) (mcu nse : Bool) : Prop where
  valid : p.Valid τ
  stable : Stable p.cfg
  method : p.method = .frechet
  expm : p.L.ExpmOk
  times : p.xTimes τ ≠ []
  drift : ∀ H ∈ p.drift, H.IsHermitian
  ctrl : ∀ H ∈ p.ctrl, H.IsHermitian
  noise : ∀ H ∈ hN, H.IsHermitian
  init : p.init ∈ Matrix.unitaryGroup n ℂ
  states : Nonempty (CompIdx cs)
  distinct : ∀ l, cs = some l → l.Nodup
  plain : mcu = false ∨ cs = none
  target : nse = true ∨ T ∈ Matrix.unitaryGroup (CompIdx cs) ℂ

section
variable {Ω : Type*} [MeasurableSpace Ω] {μ : Measure Ω} [IsProbabilityMeasure μ]

/-- **C111** The noise infidelity computed from randomly drawn independent traces: its mean is the infidelity averaged over the
noise, its variance is the variance of the infidelity divided by the number of traces (and thus at most `1 / (4 K)`), and the
probability of an error of at least `ε` is at most `2 exp (-2 K ε²)`. -/
theorem c111_estimator (p : SPar n n) (τ : List ℝ) (hN : List (Matrix n n ℂ)) (cl : Closest) (cs : Option (List n))
    (T : Matrix (CompIdx cs) (CompIdx cs) ℂ) (mcu nse : Bool) (h : NoisySystem p τ hN cs T mcu nse)
    (y u y' x : Pulse) (hu : ampsOf p.cfg τ y = some u) {K : Nat} (hK : 0 < K) (procs : Procs)
    (hp : (⟨p.cfg, hN, procs, none, K, ⟨0, 0, 0, fun _ _ _ => 0⟩⟩ : MC n n).ProcsOk) (s : Ω → Arr3)
    {ν : Measure (Fin hN.length → Fin (p.xTimes τ).length → ℝ)} (hs : IidTraces μ s hN.length K (p.xTimes τ).length ν) :
    ∃ c : Ω → ℝ, (∀ ω, mcCosts cl cs T mcu nse ⟨p.cfg, hN, procs, none, K, s ω⟩ (p.xTimes τ) y' x u = .ok (c ω)) ∧
      Integrable c μ ∧ ∫ ω, c ω ∂μ = ∫ z, traceInfidelity cl cs T mcu nse p hN τ u z ∂ν ∧
      Var[c; μ] = Var[traceInfidelity cl cs T mcu nse p hN τ u; ν] / K ∧ Var[c; μ] ≤ 1 / (4 * K) ∧
      ∀ ε, 0 ≤ ε → μ.real {ω | ε ≤ |c ω - ∫ z, traceInfidelity cl cs T mcu nse p hN τ u z ∂ν|} ≤ 2 * Real.exp (-2 * K * ε ^ 2) := by
  have hf : Measurable (traceInfidelity cl cs T mcu nse p hN τ u) :=
    (traceInfidelity_diff cl cs T mcu nse h.plain p hN τ u).continuous.measurable
  have h01 := traceInfidelity_range cl cs h.states h.distinct T mcu nse h.plain h.target p hN τ h.valid h.drift h.ctrl h.noise h.init u
  have hK' : (0 : ℝ) < K := by exact_mod_cast hK
  have hvar := iid_variance hK hs.law hs.indep hf h01
  have : IsProbabilityMeasure ν := ((hs.law ⟨0, hK⟩).isProbabilityMeasure_iff).mp inferInstance
  have hv4 : Var[traceInfidelity cl cs T mcu nse p hN τ u; ν] ≤ 1 / 4 := by
    have := variance_le_sq_of_bounded (μ := ν) (ae_of_all _ h01) hf.aemeasurable
    refine this.trans (le_of_eq (by norm_num))
  refine ⟨fun ω => (∑ k : Fin K, traceInfidelity cl cs T mcu nse p hN τ u (traceOf _ _ (s ω) k)) / K, fun ω => ?_, ?_,
    iid_mean hK hs.law hf h01, hvar, ?_, fun ε hε => iid_concentration hK hs.law hs.indep hf h01 hε⟩
  · exact mcCosts_value p τ h.valid h.stable h.method h.expm h.times ⟨p.cfg, hN, procs, none, K, s ω⟩ rfl hp rfl
      (hs.ops ω) (hs.traces ω) (hs.times ω) cl cs T mcu nse y u y' x hu
  · refine Integrable.div_const (integrable_finsetSum _ fun k _ => ?_) _
    exact Integrable.of_mem_Icc 0 1 (hf.comp_aemeasurable (hs.law k).aemeasurable) (ae_of_all _ fun ω => h01 _)
  · rw [hvar, div_le_div_iff₀ hK' (by positivity)]
    have := mul_le_mul_of_nonneg_right hv4 hK'.le
    linarith

end

end

end Verif.Cost

/-! ## The traces of the generators -/

namespace Verif.Noise
open Verif MeasureTheory ProbabilityTheory

section Blocks
variable {Ω : Type*} [MeasurableSpace Ω] {μ : Measure Ω} [IsProbabilityMeasure μ] {randn : Ω → Nat → Nat → Nat → ℝ}

omit [IsProbabilityMeasure μ] in
theorem WhiteNoise.block_law (h : WhiteNoise μ randn) (A M k : Nat) :
    HasLaw (fun ω (q : Fin A × Fin M) => randn ω q.1 k q.2) (Measure.pi fun _ => gaussianReal 0 1) μ := by
  refine iIndepFun.hasLaw_pi (X := fun (q : Fin A × Fin M) ω => randn ω q.1 k q.2) (fun q => h.law _ _ _) ?_
  exact h.indep.precomp (g := fun q : Fin A × Fin M => ((q.1 : Nat), k, (q.2 : Nat))) fun q r e => by
    simp only [Prod.mk.injEq] at e
    exact Prod.ext (Fin.ext e.1) (Fin.ext e.2.2)

/-- The numbers drawn for different traces are independent. -/
theorem WhiteNoise.block_indep (h : WhiteNoise μ randn) (A K M : Nat) :
    iIndepFun (fun (k : Fin K) ω (q : Fin A × Fin M) => randn ω q.1 k q.2) μ := by
  rw [iIndepFun_iff_hasLaw_pi_pi fun k : Fin K => h.block_law A M k]
  have h1 : HasLaw (fun ω (q : Fin K × Fin A × Fin M) => randn ω q.2.1 q.1 q.2.2)
      (Measure.pi fun _ : Fin K × Fin A × Fin M => gaussianReal 0 1) μ := by
    refine iIndepFun.hasLaw_pi (X := fun (q : Fin K × Fin A × Fin M) ω => randn ω q.2.1 q.1 q.2.2) (fun q => h.law _ _ _) ?_
    exact h.indep.precomp (g := fun q : Fin K × Fin A × Fin M => ((q.2.1 : Nat), (q.1 : Nat), (q.2.2 : Nat))) fun q r e => by
      simp only [Prod.mk.injEq] at e
      exact Prod.ext (Fin.ext e.2.1) (Prod.ext (Fin.ext e.1) (Fin.ext e.2.2))
  have h2 : HasLaw (MeasurableEquiv.curry (Fin K) (Fin A × Fin M) ℝ) (Measure.pi fun _ => Measure.pi fun _ => gaussianReal 0 1)
      (Measure.pi fun _ : Fin K × Fin A × Fin M => gaussianReal 0 1) := by
    refine ⟨(MeasurableEquiv.measurable _).aemeasurable, ?_⟩
    have := Measure.infinitePi_map_curry fun (_ : Fin K) (_ : Fin A × Fin M) => gaussianReal 0 1
    simpa only [Measure.infinitePi_eq_pi] using this
  exact h2.comp h1


/-- A nested list of numbers as an array. -/
def arrOf (a : Arr3) : Solver.Arr3 :=
  ⟨a.length, (a.getD 0 []).length, ((a.getD 0 []).getD 0 []).length, fun i j t => ((a.getD i []).getD j []).getD t 0⟩

/-- Quasi-static noise: the noise on operator `j` is constant in time and normally distributed, with the standard deviation
`std j`, independently of the other operators. -/
noncomputable def quasiStaticLaw {A : Nat} (std : Fin A → ℝ) (N : Nat) : Measure (Fin A → Fin N → ℝ) :=
  (Measure.pi fun j => gaussianReal 0 (NNReal.mk (std j ^ 2) (sq_nonneg _))).map fun v j _ => v j

/-- **C111** The samples of `NTGQuasiStatic` in Monte Carlo mode are independent traces of quasi-static noise. -/
theorem c111_quasi_static (h : WhiteNoise μ randn) (e : ℝ → ℝ) (hp : Heap) (g : QuasiStatic) (hmode : g.mode = .monteCarlo)
    (ht : 0 < g.nTraces) {A : Nat} (hA : (hp.get g.sd).length = A) (hs : 0 < A) :
    ∃ s : Ω → Arr3, (∀ ω, g.draw e hp (fun i j => randn ω i j 0) = .ok (s ω)) ∧ g.nTracesProp hp = .ok g.nTraces ∧
      Cost.IidTraces μ (fun ω => arrOf (s ω)) A g.nTraces g.nSamples
        (quasiStaticLaw (fun j : Fin A => (hp.get g.sd).getD j 0) g.nSamples) := by
  refine ⟨fun ω => (hp.get g.sd).mapIdx fun i s => (List.range g.nTraces).map fun j => List.replicate g.nSamples (s * randn ω i j 0),
    fun ω => by simp only [QuasiStatic.draw, hmode], by simp [QuasiStatic.nTracesProp, hmode], ?_⟩
  obtain ⟨std, hstd⟩ : ∃ l, hp.get g.sd = l := ⟨_, rfl⟩
  rw [hstd] at hA ⊢
  subst hA
  have hval : ∀ ω (k : Fin g.nTraces), Cost.traceOf std.length g.nSamples (arrOf (std.mapIdx fun i s =>
      (List.range g.nTraces).map fun j => List.replicate g.nSamples (s * randn ω i j 0))) k =
      fun (j : Fin std.length) _ => std.getD j 0 * randn ω j k 0 := by
    intro ω k
    funext j t
    simp [Cost.traceOf, arrOf, List.getD_eq_getElem?_getD]
  refine ⟨fun ω => ?_, fun ω => ?_, fun ω => ?_, fun k => ?_, ?_⟩
  · simp [arrOf]
  · simp [arrOf, List.getD_eq_getElem?_getD, hs]
  · simp [arrOf, List.getD_eq_getElem?_getD, hs, ht]
  · simp only [hval]
    have h1 : HasLaw (fun ω (j : Fin std.length) => std.getD j 0 * randn ω j k 0)
        (Measure.pi fun j : Fin std.length => gaussianReal 0 (NNReal.mk (std.getD j 0 ^ 2) (sq_nonneg _))) μ := by
      refine iIndepFun.hasLaw_pi (X := fun (j : Fin std.length) ω => std.getD j 0 * randn ω j k 0) (fun j => ?_) ?_
      · have h2 := gaussianReal_const_mul (h.law j k 0) (std.getD j 0)
        simpa using h2
      · exact (h.indep.precomp (g := fun j : Fin std.length => ((j : Nat), (k : Nat), 0)) fun q r e => by
          simp only [Prod.mk.injEq] at e
          exact Fin.ext e.1).comp (fun j x => std.getD j 0 * x) fun j => measurable_const_mul _
    have h2 : HasLaw (fun (v : Fin std.length → ℝ) (j : Fin std.length) (_ : Fin g.nSamples) => v j)
        (quasiStaticLaw (fun j : Fin std.length => std.getD j 0) g.nSamples)
        (Measure.pi fun j : Fin std.length => gaussianReal 0 (NNReal.mk (std.getD j 0 ^ 2) (sq_nonneg _))) :=
      ⟨Measurable.aemeasurable (by fun_prop), rfl⟩
    exact h2.comp h1
  · simp only [hval]
    exact (h.block_indep std.length g.nTraces 1).comp (fun _ w (j : Fin std.length) (_ : Fin g.nSamples) => std.getD j 0 * w (j, 0))
      fun _ => by fun_prop

/-- **C111** The samples of `NTGColoredNoise` are independent traces of Gaussian noise with mean zero; for an even length of the
extended trace with the autocovariance of the spectral density (C109). -/
theorem c111_colored (h : WhiteNoise μ randn) (S : ℝ → ℝ) {dt : ℝ} (hdt : 0 < dt) {n traces ops : Nat} (hn : 0 < n)
    (ht : 0 < traces) (ho : 0 < ops) (ratio : Int) (hr : 1 ≤ ratio)
    (hS : ∀ k : Nat, 0 < k → k ≤ (n * ratio.toNat) / 2 → 0 ≤ S (freqGrid dt (n * ratio.toNat) k)) :
    ∃ (g : ColoredNoise) (s : Ω → Arr3) (ν : Measure (Fin ops → Fin n → ℝ)),
      ColoredNoise.new S dt (some n) (some traces) (some ops) ratio = .ok g ∧
      (∀ ω, g.draw (randn ω) = .ok ((s ω).map fun m => m.map some)) ∧
      Cost.IidTraces μ (fun ω => arrOf (s ω)) ops traces n ν ∧ IsGaussian ν ∧ (∀ a i, ∫ z, z a i ∂ν = 0) ∧
      ((n * ratio.toNat) % 2 = 0 → ∀ a i a' j, ∫ z, z a i * z a' j ∂ν =
        if a = a' then autocov S dt (n * ratio.toNat) (((i : ℝ) - (j : ℝ)) * dt) else 0) := by
  have hrn : 1 ≤ ratio.toNat := by omega
  have hle : n ≤ n * ratio.toNat := Nat.le_mul_of_pos_right n hrn
  set N := n * ratio.toNat with hNdef
  have hN : 0 < N := by omega
  set κ : ℤ → ℝ := kernR (fun k => √(density S dt N k / s0 dt)) N with hκ
  obtain ⟨g, -, hg, -⟩ := c83_shape S dt hdt.ne' n traces ops hn ht ho ratio hr (fun _ _ _ => 0)
  have hdraw : ∀ ω, g.draw (randn ω) = .ok (((List.range ops).map fun a => (List.range traces).map fun b =>
      (List.range n).map fun i : Nat => ∑ m ∈ Finset.range N, κ ((i : ℤ) - m) * randn ω a b m).map fun m => m.map some) := by
    intro ω
    rw [c83_prefix S dt n traces ops hn ht ho ratio hr (randn ω) g hg, ← hNdef, fastColored_eq S hdt hN ops traces hS (randn ω)]
    simp only [Except.map, List.map_map, Function.comp_def, Option.map_some, ← List.map_take, List.take_range,
      Nat.min_eq_left hle]
    rfl
  let φ : (Fin ops × Fin N → ℝ) →L[ℝ] (Fin ops → Fin n → ℝ) :=
    ContinuousLinearMap.pi fun a => ContinuousLinearMap.pi fun i => ∑ m : Fin N, κ ((i : ℤ) - (m : ℤ)) • ContinuousLinearMap.proj (a, m)
  have hφ : ∀ w a i, φ w a i = ∑ m : Fin N, κ ((i : ℤ) - (m : ℤ)) * w (a, m) := by
    intro w a i
    simp [φ]
  have hmeas : Measurable φ := φ.continuous.measurable
  have hval : ∀ ω (k : Fin traces), Cost.traceOf ops n (arrOf ((List.range ops).map fun a => (List.range traces).map fun b =>
      (List.range n).map fun i : Nat => ∑ m ∈ Finset.range N, κ ((i : ℤ) - m) * randn ω a b m)) k =
      φ fun q => randn ω q.1 k q.2 := by
    intro ω k
    funext a i
    rw [hφ]
    simp [Cost.traceOf, arrOf, List.getD_eq_getElem?_getD, Finset.sum_range]
  have hlaw : ∀ k : Fin traces, HasLaw (fun ω => φ fun q => randn ω q.1 k q.2) ((Measure.pi fun _ => gaussianReal 0 1).map φ) μ :=
    fun k => (HasLaw.mk hmeas.aemeasurable rfl : HasLaw φ ((Measure.pi fun _ => gaussianReal 0 1).map φ) _).comp (h.block_law ops N k)
  refine ⟨g, _, (Measure.pi fun _ => gaussianReal 0 1).map φ, hg, hdraw, ⟨fun ω => ?_, fun ω => ?_, fun ω => ?_, fun k => ?_, ?_⟩, ?_, ?_, ?_⟩
  · simp [arrOf]
  · simp [arrOf, List.getD_eq_getElem?_getD, ho]
  · simp [arrOf, List.getD_eq_getElem?_getD, ho, ht]
  · simp only [hval]
    exact hlaw k
  · simp only [hval]
    exact (h.block_indep ops traces N).comp (fun _ => φ) fun _ => hmeas
  · have hG : HasGaussianLaw (fun ω (q : Fin ops × Fin N) => randn ω q.1 0 q.2) μ := by
      refine iIndepFun.hasGaussianLaw (X := fun (q : Fin ops × Fin N) ω => randn ω q.1 0 q.2) (fun q => ?_) ?_
      · exact (h.law q.1 0 q.2).hasGaussianLaw
      · exact h.indep.precomp (g := fun q : Fin ops × Fin N => ((q.1 : Nat), 0, (q.2 : Nat))) fun q r e => by
          simp only [Prod.mk.injEq] at e
          exact Prod.ext (Fin.ext e.1) (Fin.ext e.2.2)
    have := (hG.map φ).isGaussian_map
    rw [← (hlaw ⟨0, ht⟩).map_eq]
    exact this
  · intro a i
    have h1 := (hlaw ⟨0, ht⟩).integral_comp (f := fun z : Fin ops → Fin n → ℝ => z a i)
      (Measurable.aestronglyMeasurable (by fun_prop))
    rw [← h1]
    have h2 := (h.linear (fun m => κ ((i : ℤ) - m)) (fun _ => 0) N a 0 0 0).2.1
    rw [← h2]
    refine integral_congr_ae (ae_of_all _ fun ω => ?_)
    simp only [Function.comp, hφ, Finset.sum_range]
  · intro hev a i a' j
    have h1 := (hlaw ⟨0, ht⟩).integral_comp (f := fun z : Fin ops → Fin n → ℝ => z a i * z a' j)
      (Measurable.aestronglyMeasurable (by fun_prop))
    rw [← h1]
    obtain ⟨x, hx1, -, hx⟩ := c109_covariance_partial h S hdt hN hev ops traces
      (fun k hk hk2 => by rw [← freqGrid_even hdt.ne' hN hev]; exact hS k hk hk2)
    have he : ∀ ω (a : Fin ops) (i : Fin n), φ (fun q => randn ω q.1 0 q.2) a i = x ω a 0 i := by
      intro ω a i
      have h3 := hx1 ω
      rw [fastColored_eq S hdt hN ops traces hS (randn ω)] at h3
      have h4 := congrArg (fun r : Except PyErr (List (List (Option (List ℝ)))) => match r with
        | .ok l => (((l.getD a []).getD 0 none).getD []).getD i 0
        | .error _ => 0) h3
      have hi : (i : Nat) < N := by omega
      simp only [List.getD_eq_getElem?_getD, List.getElem?_map, List.getElem?_range a.2, List.getElem?_range ht, List.getElem?_range hi,
        Option.map_some, Option.getD_some] at h4
      rw [← h4, hφ, Finset.sum_range]
    have h2 := (hx a 0 i a' 0 j).2
    simp only [Prod.mk.injEq, and_true, ← Fin.ext_iff] at h2
    rw [← h2]
    refine integral_congr_ae (ae_of_all _ fun ω => ?_)
    simp only [Function.comp, he]

end Blocks
end Verif.Noise

namespace Verif.Cost
open Verif Verif.Operator Verif.Solver Verif.Noise Matrix MeasureTheory ProbabilityTheory

section
variable {n : Type} [Fintype n] [DecidableEq n]
variable {Ω : Type*} [MeasurableSpace Ω] {μ : Measure Ω} [IsProbabilityMeasure μ] {randn : Ω → Nat → Nat → Nat → ℝ}

/-- **C111** With quasi-static noise in Monte Carlo mode the mean of the noise infidelity is the infidelity averaged over a static
noise Hamiltonian whose strengths are independent normal variables with the requested standard deviations. -/
theorem c111_quasi_static_mean (h : WhiteNoise μ randn) (e : ℝ → ℝ) (hp : Heap) (g : QuasiStatic) (hmode : g.mode = .monteCarlo)
    (ht : 0 < g.nTraces) (p : SPar n n) (τ : List ℝ) (hN : List (Matrix n n ℂ)) (hl : (hp.get g.sd).length = hN.length)
    (hne : hN ≠ []) (hs : g.nSamples = (p.xTimes τ).length) (cl : Closest) (cs : Option (List n))
    (T : Matrix (CompIdx cs) (CompIdx cs) ℂ) (mcu nse : Bool) (hsys : NoisySystem p τ hN cs T mcu nse)
    (y u y' x : Pulse) (hu : ampsOf p.cfg τ y = some u) :
    ∃ (s : Ω → Noise.Arr3) (c : Ω → ℝ), (∀ ω, g.draw e hp (fun i j => randn ω i j 0) = .ok (s ω)) ∧
      (∀ ω, mcCosts cl cs T mcu nse ⟨p.cfg, hN, .int 1, none, g.nTraces, arrOf (s ω)⟩ (p.xTimes τ) y' x u = .ok (c ω)) ∧
      Integrable c μ ∧ ∫ ω, c ω ∂μ = ∫ v, traceInfidelity cl cs T mcu nse p hN τ u (fun j _ => v j)
        ∂(Measure.pi fun j : Fin hN.length => gaussianReal 0 (NNReal.mk ((hp.get g.sd).getD j 0 ^ 2) (sq_nonneg _))) := by
  obtain ⟨s, h1, -, h2⟩ := c111_quasi_static h e hp g hmode ht hl (List.length_pos_iff.mpr hne)
  rw [hs] at h2
  obtain ⟨c, h3, h4, h5, -⟩ := c111_estimator p τ hN cl cs T mcu nse hsys y u y' x hu ht (.int 1) (.inl rfl) _ h2
  refine ⟨s, c, h1, h3, h4, h5.trans ?_⟩
  unfold quasiStaticLaw
  rw [integral_map (Measurable.aemeasurable (by fun_prop))]
  exact (traceInfidelity_diff cl cs T mcu nse hsys.plain p hN τ u).continuous.aestronglyMeasurable

end

/-- A qubit with noise on the drift, compared with the evolution without noise. -/
theorem qubit_system {L : Lapack (Fin 2)} (hE : L.ExpmOk) :
    NoisySystem (qubitPar L .none true) [1, 2, 3] [!![1, 0; 0, -1]] none 1 false true where
  valid := qubitPar_valid L _ _
  stable := Or.inl ⟨rfl, rfl⟩
  method := rfl
  expm := hE
  times := by simp [qubitPar]
  drift := by
    intro H hH
    simp [qubitPar] at hH
    rw [hH]
    ext i j; fin_cases i <;> fin_cases j <;> simp
  ctrl := by
    intro H hH
    simp [qubitPar] at hH
    rcases hH with rfl | rfl <;> (ext i j; fin_cases i <;> fin_cases j <;> simp)
  noise := by
    intro H hH
    simp at hH
    rw [hH]
    ext i j; fin_cases i <;> fin_cases j <;> simp
  init := one_mem _
  states := inferInstanceAs (Nonempty (Fin 2))
  distinct := by intro l hl; simp at hl
  plain := Or.inl rfl
  target := Or.inl rfl

/-- A hundred traces of noise with standard deviation 1/10: the error of the noise infidelity exceeds 1/5 with a probability of at
most `2 exp (-8)`. -/
example (cl : Closest) : ∃ (L : Lapack (Fin 2)) (μ : Measure (Nat × Nat × Nat → ℝ)) (randn : (Nat × Nat × Nat → ℝ) → Nat → Nat → Nat → ℝ)
    (s : (Nat × Nat × Nat → ℝ) → Noise.Arr3) (c : (Nat × Nat × Nat → ℝ) → ℝ), WhiteNoise μ randn ∧
    (∀ ω, (⟨0, 3, 100, none, true, .monteCarlo⟩ : QuasiStatic).draw (fun x => x) [[1 / 10]] (fun i j => randn ω i j 0) = .ok (s ω)) ∧
    (∀ ω, mcCosts cl (n := Fin 2) none 1 false true ⟨(qubitPar L .none true).cfg, [!![1, 0; 0, -1]], .int 1, none, 100, arrOf (s ω)⟩ [1, 2, 3] [] []
      [[1, 2], [3, 4], [5, 6]] = .ok (c ω)) ∧
    μ.real {ω | 1 / 5 ≤ |c ω - ∫ ω, c ω ∂μ|} ≤ 2 * Real.exp (-8) := by
  obtain ⟨L, -, -, hE, -⟩ := lapack_exists (Fin 2)
  obtain ⟨μ, hμ, hw⟩ := whiteNoise_exists
  obtain ⟨s, h1, -, h2⟩ := c111_quasi_static hw (fun x => x) [[1 / 10]] ⟨0, 3, 100, none, true, .monteCarlo⟩ rfl (by norm_num)
    (A := 1) rfl (by norm_num)
  obtain ⟨c, h3, -, h4, -, -, h5⟩ := c111_estimator (qubitPar L .none true) [1, 2, 3] [!![1, 0; 0, -1]] cl none 1 false true
    (qubit_system hE) _ _ [] [] (qubitPar_amps L _ _ [[1, 2], [3, 4], [5, 6]] rfl (by simp)) (by norm_num : 0 < 100)
    (.int 1) (.inl rfl) _ h2
  refine ⟨L, μ, _, s, c, hw, h1, h3, ?_⟩
  have := h5 (1 / 5) (by norm_num)
  rw [← h4] at this
  refine this.trans (le_of_eq ?_)
  norm_num

/-- `c111_quasi_static_mean` and `c111_colored` apply. -/
example (cl : Closest) : ∃ (L : Lapack (Fin 2)) (μ : Measure (Nat × Nat × Nat → ℝ)) (c : (Nat × Nat × Nat → ℝ) → ℝ),
    ∫ ω, c ω ∂μ = ∫ v, traceInfidelity cl none 1 false true (qubitPar L .none true) [!![1, 0; 0, -1]] [1, 2, 3] [[1, 2], [3, 4], [5, 6]]
      (fun j _ => v j) ∂(Measure.pi fun j : Fin 1 => gaussianReal 0 (NNReal.mk ([(1 / 10 : ℝ)].getD j 0 ^ 2) (sq_nonneg _))) := by
  obtain ⟨L, -, -, hE, -⟩ := lapack_exists (Fin 2)
  obtain ⟨μ, hμ, hw⟩ := whiteNoise_exists
  obtain ⟨s, c, -, -, -, h⟩ := c111_quasi_static_mean hw (fun x => x) [[1 / 10]] ⟨0, 3, 100, none, true, .monteCarlo⟩ rfl (by norm_num)
    (qubitPar L .none true) [1, 2, 3] [!![1, 0; 0, -1]] rfl (by simp) rfl cl none 1 false true (qubit_system hE) _ _ [] []
    (qubitPar_amps L _ _ [[1, 2], [3, 4], [5, 6]] rfl (by simp))
  exact ⟨L, μ, c, h⟩

example : ∃ (μ : Measure (Nat × Nat × Nat → ℝ)) (s : (Nat × Nat × Nat → ℝ) → Noise.Arr3) (ν : Measure (Fin 2 → Fin 10 → ℝ)),
    IidTraces μ (fun ω => arrOf (s ω)) 2 50 10 ν ∧ IsGaussian ν := by
  obtain ⟨μ, hμ, hw⟩ := whiteNoise_exists
  obtain ⟨g, s, ν, -, -, h1, h2, -⟩ := c111_colored hw (fun f => 1 / f) (dt := 1) (by norm_num) (n := 10) (traces := 50) (ops := 2)
    (by norm_num) (by norm_num) (by norm_num) 2 (by norm_num) (fun k _ _ => by
      unfold freqGrid
      positivity)
  exact ⟨μ, s, ν, h1, h2⟩

end Verif.Cost
