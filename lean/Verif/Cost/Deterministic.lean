import Verif.Cost.Estimator
import Verif.Noise.Quadrature

/-!
# C114: averages over deterministic samples

`OperationNoiseInfidelity` on a Monte Carlo solver whose noise is drawn by `NTGQuasiStatic` in deterministic mode.
-/

namespace Verif.Cost
open Verif Verif.Operator Verif.Solver Verif.Noise MeasureTheory ProbabilityTheory Matrix Filter
open scoped Topology

section
variable {n : Type} [Fintype n] [DecidableEq n]

/-! ## Specification -/

/-- Static noise of strength `z` on operator `j` only. -/
def onlyOn {A : Nat} (N : Nat) (j : Fin A) (z : ℝ) : Fin A → Fin N → ℝ := fun i _ => if i = j then z else 0

/-- The infidelity averaged over static normally distributed noise on operator `j`, the other operators being silent. -/
noncomputable def singleAverage (cl : Closest) (cs : Option (List n)) (T : Matrix (CompIdx cs) (CompIdx cs) ℂ) (mcu nse : Bool)
    (p : SPar n n) (hN : List (Matrix n n ℂ)) (τ : List ℝ) (u : Pulse) (j : Fin hN.length) (std : ℝ) : ℝ :=
  ∫ z, traceInfidelity cl cs T mcu nse p hN τ u (onlyOn _ j z) ∂(gaussianReal 0 (NNReal.mk (std ^ 2) (sq_nonneg _)))

/-! ## The traces -/

/-- Trace `k` of the deterministic samples. -/
theorem det_traces (e : ℝ → ℝ) (h : Heap) (g : QuasiStatic) (hm : g.mode = .deterministic) (hn : 0 < g.nTraces) (randn : Nat → Nat → ℝ)
    {A : Nat} (hA : (h.get g.sd).length = A) (hpos : 0 < A) :
    ∃ a, g.draw e h randn = .ok a ∧ (arrOf a).d0 = A ∧ (arrOf a).d1 = g.nTraces * A ∧ (arrOf a).d2 = g.nSamples ∧
      ∀ k, (hk : k < g.nTraces * A) → traceOf A g.nSamples (arrOf a) k =
        onlyOn g.nSamples ⟨k / g.nTraces, Nat.div_lt_of_lt_mul hk⟩ (smp e ((h.get g.sd).getD (k / g.nTraces) 0) g.nTraces (k % g.nTraces)) := by
  obtain ⟨a, h1, h2, h3, h4⟩ := draw_det e h g hm hn randn
  rw [hA] at h2 h3 h4
  have hget : ∀ i j, i < A → j < g.nTraces * A → (a.getD i []).getD j [] =
      List.replicate g.nSamples (if j / g.nTraces = i then smp e ((h.get g.sd).getD i 0) g.nTraces (j % g.nTraces) else 0) := by
    intro i j hi hj
    have hr := h4 i j
    rw [if_pos ⟨hi, hj⟩] at hr
    unfold Noise.row at hr
    rw [List.getElem?_eq_getElem (by omega)] at hr
    simp only [Option.bind_some] at hr
    simp only [List.getD_eq_getElem?_getD]
    rw [List.getElem?_eq_getElem (l := a) (i := i) (by omega), Option.getD_some, hr]
    rfl
  have hrow : (a.getD 0 []).length = g.nTraces * A := by
    rw [List.getD_eq_getElem _ _ (by omega)]
    exact h3 _ (List.getElem_mem _)
  refine ⟨a, h1, h2, hrow, ?_, fun k hk => ?_⟩
  · show ((a.getD 0 []).getD 0 []).length = _
    rw [hget 0 0 hpos (Nat.mul_pos hn hpos)]
    simp
  · funext i t
    show ((a.getD i []).getD k []).getD t 0 = _
    rw [hget i k i.2 hk]
    unfold onlyOn
    rw [List.getD_eq_getElem _ _ (by simp)]
    simp only [List.getElem_replicate]
    by_cases hik : k / g.nTraces = i
    · rw [if_pos hik, if_pos (Fin.ext hik.symm), hik]
    · rw [if_neg hik, if_neg (fun q => hik (congrArg Fin.val q).symm)]

theorem sum_blocks (K A : Nat) (hK : 0 < K) (F : Nat → Nat → ℝ) :
    ∑ k ∈ Finset.range (K * A), F (k / K) (k % K) = ∑ j ∈ Finset.range A, ∑ i ∈ Finset.range K, F j i := by
  induction A with
  | zero => simp
  | succ A ih =>
    rw [Nat.mul_succ, Finset.sum_range_add, ih, Finset.sum_range_succ]
    congr 1
    refine Finset.sum_congr rfl fun i hi => ?_
    have hi : i < K := Finset.mem_range.mp hi
    rw [Nat.mul_add_div hK, Nat.div_eq_of_lt hi, add_zero, Nat.mul_add_mod, Nat.mod_eq_of_lt hi]

/-- **C114** The value: the mean over the operators of the mean over the samples, each with noise on one operator only. -/
theorem c114_value (e : ℝ → ℝ) (h : Heap) (g : QuasiStatic) (hm : g.mode = .deterministic) (hn : 0 < g.nTraces)
    (randn : Nat → Nat → ℝ) (p : SPar n n) (τ : List ℝ) (hN : List (Matrix n n ℂ)) (hl : (h.get g.sd).length = hN.length)
    (hne : hN ≠ []) (hs : g.nSamples = (p.xTimes τ).length) (cl : Closest) (cs : Option (List n))
    (T : Matrix (CompIdx cs) (CompIdx cs) ℂ) (mcu nse : Bool) (hsys : NoisySystem p τ hN cs T mcu nse)
    (y u y' x : Pulse) (hu : ampsOf p.cfg τ y = some u) (procs : Procs)
    (hp : ∀ K s, (⟨p.cfg, hN, procs, none, K, s⟩ : MC n n).ProcsOk) :
    ∃ (a : Noise.Arr3) (nt : Nat) (samples : Fin hN.length → List ℝ), g.draw e h randn = .ok a ∧ g.nTracesProp h = .ok nt ∧
      (∀ j : Fin hN.length, sample1dim e ((h.get g.sd).getD j 0) g.nTraces = .ok (samples j)) ∧
      mcCosts cl cs T mcu nse ⟨p.cfg, hN, procs, none, nt, arrOf a⟩ (p.xTimes τ) y' x u =
      .ok ((∑ j : Fin hN.length, npMean ((samples j).map fun z => traceInfidelity cl cs T mcu nse p hN τ u (onlyOn _ j z))) / hN.length) := by
  have hA : 0 < hN.length := List.length_pos_iff.mpr hne
  obtain ⟨a, h1, h2, h3, h4, h5⟩ := det_traces e h g hm hn randn hl hA
  refine ⟨a, g.nTraces * hN.length, fun j => _, h1, by simp [QuasiStatic.nTracesProp, hm, hl], fun j => sample1dim_eq _ _ _ _ hn, ?_⟩
  rw [mcCosts_value p τ hsys.valid hsys.stable hsys.method hsys.expm hsys.times ⟨p.cfg, hN, procs, none, g.nTraces * hN.length, arrOf a⟩ rfl
    (hp _ _) rfl h2 h3 (h4.trans hs) cl cs T mcu nse y u y' x hu]
  simp only
  congr 1
  have hK : (g.nTraces : ℝ) ≠ 0 := by exact_mod_cast hn.ne'
  have hA' : (hN.length : ℝ) ≠ 0 := by exact_mod_cast hA.ne'
  let F : Nat → Nat → ℝ := fun j i => if hj : j < hN.length then
    traceInfidelity cl cs T mcu nse p hN τ u (onlyOn _ ⟨j, hj⟩ (smp e ((h.get g.sd).getD j 0) g.nTraces i)) else 0
  have e1 : ∑ k : Fin (g.nTraces * hN.length), traceInfidelity cl cs T mcu nse p hN τ u (traceOf _ _ (arrOf a) k) =
      ∑ k ∈ Finset.range (g.nTraces * hN.length), F (k / g.nTraces) (k % g.nTraces) := by
    rw [Finset.sum_range]
    refine Finset.sum_congr rfl fun k _ => ?_
    have := h5 k k.2
    rw [hs] at this
    rw [this]
    simp only [F, Nat.div_lt_of_lt_mul k.2, dif_pos]
  rw [e1, sum_blocks _ _ hn, Finset.sum_range]
  have e2 : ∀ j : Fin hN.length, npMean (((List.range g.nTraces).map fun i => (h.get g.sd).getD j 0 * √2 * e (pt g.nTraces i) + 0).map
      fun z => traceInfidelity cl cs T mcu nse p hN τ u (onlyOn _ j z)) = (∑ i ∈ Finset.range g.nTraces, F j i) / g.nTraces := by
    intro j
    unfold npMean
    rw [List.map_map, List.length_map, List.length_range, Finset.sum_range, ← List.sum_ofFn, List.ofFn_eq_map,
      ← List.map_coe_finRange_eq_range, List.map_map]
    simp only [F, j.2, dif_pos]
    rfl
  simp only [e2, ← Finset.sum_div]
  push_cast
  field_simp

/-! ## Convergence -/

theorem det_limit {e : ℝ → ℝ} (he : IsErfinv e) (p : SPar n n) (τ : List ℝ) (hN : List (Matrix n n ℂ)) (cl : Closest)
    (cs : Option (List n)) (T : Matrix (CompIdx cs) (CompIdx cs) ℂ) (mcu nse : Bool) (hsys : NoisySystem p τ hN cs T mcu nse)
    (u : Pulse) (j : Fin hN.length) (s : Nat → ℝ) (σ : ℝ) (hs : Tendsto s atTop (𝓝 σ)) :
    Tendsto (fun K : Nat => npMean (((List.range K).map fun i => s K * √2 * e (pt K i) + 0).map fun z =>
      traceInfidelity cl cs T mcu nse p hN τ u (onlyOn _ j z))) atTop (𝓝 (singleAverage cl cs T mcu nse p hN τ u j σ)) := by
  have hc : Continuous fun z => traceInfidelity cl cs T mcu nse p hN τ u (onlyOn _ j z) := by
    refine (traceInfidelity_diff cl cs T mcu nse hsys.plain p hN τ u).continuous.comp ?_
    refine continuous_pi fun i => continuous_pi fun t => ?_
    unfold onlyOn
    split <;> fun_prop
  have hb : ∀ z, |traceInfidelity cl cs T mcu nse p hN τ u (onlyOn _ j z)| ≤ 1 := fun z => by
    have h := traceInfidelity_range cl cs hsys.states hsys.distinct T mcu nse hsys.plain hsys.target p hN τ hsys.valid hsys.drift
      hsys.ctrl hsys.noise hsys.init u (onlyOn _ j z)
    rw [abs_of_nonneg h.1]
    exact h.2
  refine (samples_tendsto he hc hb hs).congr fun K => ?_
  unfold npMean
  rw [List.map_map, List.length_map, List.length_range, Finset.sum_range, ← List.sum_ofFn, List.ofFn_eq_map,
    ← List.map_coe_finRange_eq_range, List.map_map]
  simp only [Function.comp_def, add_zero]

theorem sqrtV_tendsto {e : ℝ → ℝ} (he : IsErfinv e) {A : Nat} (hA : 0 < A) :
    Tendsto (fun K : Nat => √2 * √(V e (K * A))) atTop (𝓝 1) := by
  have h1 : Tendsto (fun K : Nat => K * A) atTop atTop := tendsto_id.atTop_mul_const' hA
  have h2 := ((Real.continuous_sqrt.tendsto _).comp ((V_tendsto he).comp h1)).const_mul √2
  rw [← Real.sqrt_mul (by norm_num), show (2 : ℝ) * (1 / 2) = 1 by norm_num, Real.sqrt_one] at h2
  exact h2

theorem corrected_tendsto {e : ℝ → ℝ} (he : IsErfinv e) {A : Nat} (hA : 0 < A) {s : ℝ} (hs : s ≠ 0) :
    Tendsto (fun K : Nat => corrected e (K * A) s) atTop (𝓝 |s|) := by
  have h := ((sqrtV_tendsto he hA).const_mul |s|)
  rw [mul_one] at h
  have h2 := (tendsto_const_nhds (x := s)).mul ((tendsto_const_nhds (x := s)).div h (abs_ne_zero.mpr hs))
  have h3 : s * (s / |s|) = |s| := by
    rw [mul_div_assoc', div_eq_iff (abs_ne_zero.mpr hs)]
    exact (abs_mul_abs_self s).symm
  rw [h3] at h2
  refine h2.congr fun K => ?_
  unfold corrected
  rw [mul_assoc |s|]
  rfl

/-- **C114** Convergence: with more and more traces the noise infidelity from deterministic samples, with or without the correction
of the standard deviation, tends to the mean over the noise operators of the infidelity averaged over static normally distributed
noise on that operator alone, with the requested standard deviation. -/
theorem c114_convergence {e : ℝ → ℝ} (he : IsErfinv e) (h : Heap) (sd : Nat) (hsd : sd < h.length) (redraw correct : Bool)
    (randn : Nat → Nat → ℝ) (p : SPar n n) (τ : List ℝ) (hN : List (Matrix n n ℂ)) (hl : (h.get sd).length = hN.length)
    (hne : hN ≠ []) (hbig : correct = true → ∀ s ∈ h.get sd, tiny < |s|) (cl : Closest) (cs : Option (List n))
    (T : Matrix (CompIdx cs) (CompIdx cs) ℂ) (mcu nse : Bool) (hsys : NoisySystem p τ hN cs T mcu nse)
    (y u y' x : Pulse) (hu : ampsOf p.cfg τ y = some u) (procs : Procs)
    (hp : ∀ K s, (⟨p.cfg, hN, procs, none, K, s⟩ : MC n n).ProcsOk) :
    ∃ c : Nat → ℝ, (∀ᶠ K : Nat in atTop, ∃ (g : QuasiStatic) (h' : Heap) (a : Noise.Arr3) (nt : Nat),
        QuasiStatic.new e h sd (p.xTimes τ).length K none redraw correct .deterministic = (.ok g, h') ∧
        g.draw e h' randn = .ok a ∧ g.nTracesProp h' = .ok nt ∧
        mcCosts cl cs T mcu nse ⟨p.cfg, hN, procs, none, nt, arrOf a⟩ (p.xTimes τ) y' x u = .ok (c K)) ∧
      Tendsto c atTop (𝓝 ((∑ j : Fin hN.length, singleAverage cl cs T mcu nse p hN τ u j ((h.get sd).getD j 0)) / hN.length)) := by
  have hA : 0 < hN.length := List.length_pos_iff.mpr hne
  have hmem : ∀ j, j < hN.length → (h.get sd).getD j 0 ∈ h.get sd := fun j hj => by
    rw [List.getD_eq_getElem _ _ (by omega)]
    exact List.getElem_mem _
  have htiny : 0 < tiny := by unfold tiny; positivity
  let σ : Nat → Nat → ℝ := fun K j => if correct then corrected e (K * hN.length) ((h.get sd).getD j 0) else (h.get sd).getD j 0
  have hcost : ∀ (K : Nat) (h' : Heap), 0 < K → (h'.get sd).length = hN.length → (∀ j, j < hN.length → (h'.get sd).getD j 0 = σ K j) →
      ∃ (a : Noise.Arr3) (nt : Nat), (⟨sd, (p.xTimes τ).length, K, none, redraw, .deterministic⟩ : QuasiStatic).draw e h' randn = .ok a ∧
        (⟨sd, (p.xTimes τ).length, K, none, redraw, .deterministic⟩ : QuasiStatic).nTracesProp h' = .ok nt ∧
        mcCosts cl cs T mcu nse ⟨p.cfg, hN, procs, none, nt, arrOf a⟩ (p.xTimes τ) y' x u =
          .ok ((∑ j : Fin hN.length, npMean (((List.range K).map fun i => σ K j * √2 * e (pt K i) + 0).map fun z =>
            traceInfidelity cl cs T mcu nse p hN τ u (onlyOn _ j z))) / hN.length) := by
    intro K h' hK hl' hσ
    obtain ⟨a, nt, samples, h1, h2, h3, h4⟩ := c114_value e h' ⟨sd, (p.xTimes τ).length, K, none, redraw, .deterministic⟩ rfl hK randn
      p τ hN hl' hne rfl cl cs T mcu nse hsys y u y' x hu procs hp
    refine ⟨a, nt, h1, h2, h4.trans ?_⟩
    congr 2
    refine Finset.sum_congr rfl fun j _ => ?_
    have := h3 j
    rw [sample1dim_eq _ _ _ _ hK, hσ j j.2] at this
    rw [← Except.ok.inj this]
  refine ⟨fun K => (∑ j : Fin hN.length, npMean (((List.range K).map fun i => σ K j * √2 * e (pt K i) + 0).map fun z =>
    traceInfidelity cl cs T mcu nse p hN τ u (onlyOn _ j z))) / hN.length, ?_, ?_⟩
  · cases hcorr : correct with
    | false =>
      filter_upwards [eventually_gt_atTop 0] with K hK
      obtain ⟨a, nt, h1, h2, h3⟩ := hcost K h hK hl (fun j _ => by simp [σ, hcorr])
      exact ⟨_, h, a, nt, rfl, h1, h2, h3⟩
    | true =>
      have hev : ∀ᶠ K : Nat in atTop, ∀ j ∈ Finset.range hN.length, tiny < |(h.get sd).getD j 0| * (√2 * √(V e (K * hN.length))) := by
        rw [Filter.eventually_all_finset]
        intro j hj
        have := (sqrtV_tendsto he hA).const_mul |(h.get sd).getD j 0|
        rw [mul_one] at this
        exact (tendsto_order.mp this).1 _ (hbig hcorr _ (hmem j (Finset.mem_range.mp hj)))
      filter_upwards [eventually_ge_atTop 2, hev] with K hK hK'
      obtain ⟨g, h', hnew⟩ := (c73_succeeds he h sd (p.xTimes τ).length K none redraw hsd (by omega) (by omega)).2 ⟨by
        rw [hl]; nlinarith, fun i hi => by
        rw [hl, mul_assoc]
        exact (hK' i (Finset.mem_range.mpr (by omega))).le⟩
      obtain ⟨rfl, -, k2, k3⟩ := new_corrected he h sd (p.xTimes τ).length K none redraw hsd (by omega) (by omega) g h' hnew
      obtain ⟨a, nt, h1, h2, h3⟩ := hcost K h' (by omega) (k2.trans hl) (fun j hj => by
        rw [(k3 j (by omega)).1, hl]
        simp [σ, hcorr])
      exact ⟨_, h', a, nt, hnew, h1, h2, h3⟩
  · refine Tendsto.div_const (tendsto_finsetSum _ fun j _ => ?_) _
    cases hcorr : correct with
    | false =>
      exact det_limit he p τ hN cl cs T mcu nse hsys u j (fun K => σ K j) _ (by simp only [σ, hcorr]; exact tendsto_const_nhds)
    | true =>
      have hs : (h.get sd).getD j 0 ≠ 0 := by
        have := htiny.trans (hbig hcorr _ (hmem j j.2))
        exact abs_pos.mp this
      have := det_limit he p τ hN cl cs T mcu nse hsys u j (fun K => σ K j) |(h.get sd).getD j 0| (by
        simp only [σ, hcorr, if_true]; exact corrected_tendsto he hA hs)
      unfold singleAverage at this ⊢
      simp only [sq_abs] at this
      exact this

end

/-- A qubit with static noise on the drift, standard deviation 1/10, with the correction. -/
example (cl : Closest) : ∃ (L : Lapack (Fin 2)) (e : ℝ → ℝ) (c : Nat → ℝ), IsErfinv e ∧
    (∀ᶠ K : Nat in atTop, ∃ (g : QuasiStatic) (h' : Heap) (a : Noise.Arr3) (nt : Nat),
      QuasiStatic.new e [[1 / 10]] 0 3 K none true true .deterministic = (.ok g, h') ∧ g.draw e h' (fun _ _ => 0) = .ok a ∧
      g.nTracesProp h' = .ok nt ∧
      mcCosts cl (n := Fin 2) none 1 false true ⟨(qubitPar L .none true).cfg, [!![1, 0; 0, -1]], .int 1, none, nt, arrOf a⟩ [1, 2, 3] [] []
        [[1, 2], [3, 4], [5, 6]] = .ok (c K)) ∧
    Tendsto c atTop (𝓝 ((∑ j : Fin 1, singleAverage cl none 1 false true (qubitPar L .none true) [!![1, 0; 0, -1]] [1, 2, 3]
      [[1, 2], [3, 4], [5, 6]] j (([1 / 10] : List ℝ).getD j 0)) / (1 : Nat))) := by
  obtain ⟨L, -, -, hE, -⟩ := lapack_exists (Fin 2)
  obtain ⟨e, he⟩ := exists_erfinv
  obtain ⟨c, h1, h2⟩ := c114_convergence he [[1 / 10]] 0 (by simp) true true (fun _ _ => 0) (qubitPar L .none true) [1, 2, 3]
    [!![1, 0; 0, -1]] rfl (by simp) (fun _ s hs => by
      have : s = 1 / 10 := by simpa [Heap.get] using hs
      rw [this, abs_of_pos (by norm_num)]
      unfold tiny
      norm_num) cl none 1 false true (qubit_system hE) _ _ [] []
    (qubitPar_amps L _ _ [[1, 2], [3, 4], [5, 6]] rfl (by simp)) (.int 1) (fun _ _ => .inl rfl)
  exact ⟨L, e, c, he, h1, h2⟩

end Verif.Cost
