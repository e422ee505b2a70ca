import Verif.Sim.MirrorNoise

/-!
# C169: the time grid of simulations with noise

The Monte Carlo solver (solver_algorithms.py:1015-1410) and the noise cost functions (cost_functions.py) on a time grid and on a finer one: every
time step is divided into `o` parts, as by an `OversamplingTF` (transfer_function.py:579-687), and the noise samples of a step are repeated for
its parts.
-/

namespace Verif.Sim
open Verif Verif.Transfer Verif.Operator Verif.Solver Verif.Cost Matrix

variable {n m : Type} [Fintype n] [DecidableEq n]

/-! ## Specification -/

/-- `M'` simulates the system of `M` on a finer time grid: step `t` is divided into the steps `t * o, ..., t * o + o - 1`, whose durations add up
to that of step `t` and which have the same drift and the same noise samples. -/
structure Refined (o : Nat) (p p' : SPar n m) (τ τ' : List ℝ) (M M' : MC n m) : Prop where
  pulse : NoisyPulse p τ M.hNoise
  pulse' : NoisyPulse p' τ' M'.hNoise
  given : Given M p τ
  given' : Given M' p' τ'
  procs : M.ProcsOk
  procs' : M'.ProcsOk
  init : p'.init = p.init
  ctrl : p'.ctrl = p.ctrl
  ops : M'.hNoise = M.hNoise
  traces : M'.nTraces = M.nTraces
  steps : (p'.xTimes τ').length = (p.xTimes τ).length * o
  durations : ∀ t < (p.xTimes τ).length, ∑ r : Fin o, (p'.xTimes τ').getD (t * o + r) 0 = (p.xTimes τ).getD t 0
  drift : ∀ t < (p.xTimes τ).length, ∀ r < o, p'.drift.getD (t * o + r) 0 = p.drift.getD t 0
  samples : ∀ j k t r, j < M.hNoise.length → k < M.nTraces → t < (p.xTimes τ).length → r < o →
    M'.samples.val j k (t * o + r) = M.samples.val j k t

/-- The amplitudes `u'` repeat every row of `u` for the parts of its step. -/
def Repeats (o N : Nat) (u u' : Solver.Pulse) : Prop := ∀ t < N, ∀ r < o, u'.getD (t * o + r) [] = u.getD t []

/-! ## Lemmas -/

/-- Several steps with the same generator. -/
theorem foldl_parts (δ : List ℝ) (G : Matrix n n ℂ) (F : Matrix n m ℂ) :
    (δ.map fun s : ℝ => NormedSpace.exp ((s : ℂ) • G)).foldl (fun F P => P * F) F = NormedSpace.exp (((δ.sum : ℝ) : ℂ) • G) * F := by
  induction δ generalizing F with
  | nil => simp
  | cons s δ ih =>
    rw [List.map_cons, List.foldl_cons, ih, ← Matrix.mul_assoc, List.sum_cons]
    push_cast
    rw [add_smul, add_comm, Matrix.exp_add_of_commute]
    exact (Commute.refl G).smul_left _ |>.smul_right _

theorem foldl_blocks (l : List (List (Matrix n n ℂ))) (l' : List (Matrix n n ℂ))
    (h : List.Forall₂ (fun a b => ∀ F : Matrix n m ℂ, a.foldl (fun F P => P * F) F = b * F) l l') (F : Matrix n m ℂ) :
    l.foldl (fun F a => a.foldl (fun F P => P * F) F) F = l'.foldl (fun F P => P * F) F := by
  induction h generalizing F with
  | nil => rfl
  | cons h1 _ ih => rw [List.foldl_cons, List.foldl_cons, h1, ih]

theorem noisyFinal_refined (o : Nat) (p p' : SPar n m) (τ τ' : List ℝ) (hN : List (Matrix n n ℂ)) (hi : p'.init = p.init) (hc : p'.ctrl = p.ctrl)
    (hs : (p'.xTimes τ').length = (p.xTimes τ).length * o)
    (hd : ∀ t < (p.xTimes τ).length, ∑ r : Fin o, (p'.xTimes τ').getD (t * o + r) 0 = (p.xTimes τ).getD t 0)
    (hdr : ∀ t < (p.xTimes τ).length, ∀ r < o, p'.drift.getD (t * o + r) 0 = p.drift.getD t 0) (u u' : Solver.Pulse)
    (hu : Repeats o (p.xTimes τ).length u u') (z : Fin hN.length → Fin (p.xTimes τ).length → ℝ)
    (z' : Fin hN.length → Fin (p'.xTimes τ').length → ℝ)
    (hz : ∀ j (t : Fin (p.xTimes τ).length) (r : Fin o) (i : Fin (p'.xTimes τ').length), (i : Nat) = t * o + r → z' j i = z j t) :
    noisyFinal p' hN τ' u' z' = noisyFinal p hN τ u z := by
  unfold noisyFinal
  have e : List.ofFn (noisyStep p' hN τ' u' z') = List.ofFn fun i : Fin ((p.xTimes τ).length * o) => noisyStep p' hN τ' u' z' (Fin.cast hs.symm i) :=
    List.ofFn_congr hs _
  rw [e, List.ofFn_mul, List.foldl_flatten, hi]
  refine foldl_blocks _ _ ?_ _
  rw [List.forall₂_iff_get]
  refine ⟨by simp, fun t h1 h2 F => ?_⟩
  have ht : t < (p.xTimes τ).length := by simpa using h2
  have hlt : ∀ r : Fin o, t * o + r < (p'.xTimes τ').length := fun r => by
    rw [hs]
    calc t * o + r < t * o + o := by omega
      _ = (t + 1) * o := by ring
      _ ≤ _ := Nat.mul_le_mul_right o ht
  rw [List.get_eq_getElem, List.get_eq_getElem, List.getElem_ofFn, List.getElem_ofFn]
  set G : Matrix n n ℂ := (-Complex.I) • (hamiltonian (p.drift.getD t 0) p.ctrl (u.getD t []) + ∑ j, ((z j ⟨t, ht⟩ : ℝ) : ℂ) • hN[j]) with hG
  have e1 : (List.ofFn fun r : Fin o => noisyStep p' hN τ' u' z' (Fin.cast hs.symm ⟨t * o + r, by rw [← hs]; exact hlt r⟩)) =
      (List.ofFn fun r : Fin o => (p'.xTimes τ').getD (t * o + r) 0).map fun s : ℝ => NormedSpace.exp ((s : ℂ) • G) := by
    rw [List.map_ofFn]
    congr 1
    funext r
    show NormedSpace.exp _ = NormedSpace.exp _
    congr 2
    · show (((p'.xTimes τ')[t * o + (r : Nat)]'(hlt r) : ℝ) : ℂ) = (((p'.xTimes τ').getD (t * o + r) 0 : ℝ) : ℂ)
      rw [List.getD_eq_getElem _ _ (hlt r)]
    · rw [hG]
      congr 2
      · show hamiltonian (p'.drift.getD (t * o + r) 0) p'.ctrl (u'.getD (t * o + r) []) = _
        rw [hdr t ht r r.2, hc, hu t ht r r.2]
      · refine Finset.sum_congr rfl fun j _ => ?_
        rw [hz j ⟨t, ht⟩ r _ rfl]
  refine (congrArg (fun l => l.foldl (fun F P => P * F) F) e1).trans ?_
  rw [foldl_parts, List.sum_ofFn, hd t ht, List.getD_eq_getElem _ _ ht]
  rfl

/-- The final operators of all traces. -/
theorem Refined.finals {o : Nat} {p p' : SPar n m} {τ τ' : List ℝ} {M M' : MC n m} (h : Refined o p p' τ τ' M M') (u u' : Solver.Pulse)
    (hu : Repeats o (p.xTimes τ).length u u') :
    noisyFinal p' M'.hNoise τ' u' 0 = noisyFinal p M.hNoise τ u 0 ∧
    ∀ i : Nat, i < M.nTraces → noisyFinal p' M'.hNoise τ' u' (traceOf _ _ M'.samples i) = noisyFinal p M.hNoise τ u (traceOf _ _ M.samples i) := by
  rw [h.ops]
  refine ⟨?_, fun k hk => ?_⟩
  · exact noisyFinal_refined o p p' τ τ' M.hNoise h.init h.ctrl h.steps h.durations h.drift u u' hu 0 0 fun _ _ _ _ _ => rfl
  · refine noisyFinal_refined o p p' τ τ' M.hNoise h.init h.ctrl h.steps h.durations h.drift u u' hu _ _ fun j t r i hi => ?_
    show M'.samples.val j k i = M.samples.val j k t
    rw [hi]
    exact h.samples j k t r j.2 hk t.2 r.2

/-! ## The property -/

/-- **C169** The noise infidelity is the same on both grids. -/
theorem c169_infidelity (o : Nat) (p p' : SPar n n) (τ τ' : List ℝ) (M M' : MC n n) (h : Refined o p p' τ τ' M M') (cl : Closest)
    (cs : Option (List n)) (mcu nse : Bool) (T : Matrix (CompIdx cs) (CompIdx cs) ℂ) (y u : Solver.Pulse) (hy : ampsOf p.cfg τ y = some u)
    (z u' : Solver.Pulse) (hz : ampsOf p'.cfg τ' z = some u') (hu : Repeats o (p.xTimes τ).length u u') (y' x y'' x' : Solver.Pulse) :
    mcCosts cl cs T mcu nse M' (p'.xTimes τ') y'' x' u' = mcCosts cl cs T mcu nse M (p.xTimes τ) y' x u := by
  have g := h.given
  have g' := h.given'
  have q := h.pulse'
  rw [mcCosts_value p τ h.pulse.valid h.pulse.stable h.pulse.method h.pulse.expm h.pulse.times M g.base h.procs g.amp g.ops g.traces g.times cl
    cs T mcu nse y u y' x hy, mcCosts_value p' τ' q.valid q.stable q.method q.expm q.times M' g'.base h.procs' g'.amp g'.ops g'.traces
    g'.times cl cs T mcu nse z u' y'' x' hz]
  obtain ⟨w, hk⟩ := h.finals u u' hu
  refine trace_means h.traces _ _ fun k hk' => ?_
  unfold traceInfidelity
  rw [w, hk k hk']

/-- **C169** The leakage is the same on both grids. -/
theorem c169_leakage (o : Nat) (p p' : SPar n n) (τ τ' : List ℝ) (M M' : MC n n) (h : Refined o p p' τ τ' M M') (l : List n)
    (y u : Solver.Pulse) (hy : ampsOf p.cfg τ y = some u) (z u' : Solver.Pulse) (hz : ampsOf p'.cfg τ' z = some u')
    (hu : Repeats o (p.xTimes τ).length u u') (y' x y'' x' : Solver.Pulse) :
    mcLeakCosts l M' (p'.xTimes τ') y'' x' u' = mcLeakCosts l M (p.xTimes τ) y' x u := by
  have g := h.given
  have g' := h.given'
  rw [mcLeakCosts_value p τ _ h.pulse l M g.base rfl h.procs g.amp g.ops g.traces g.times y u y' x hy,
    mcLeakCosts_value p' τ' _ h.pulse' l M' g'.base rfl h.procs' g'.amp g'.ops g'.traces g'.times z u' y'' x' hz]
  obtain ⟨-, hk⟩ := h.finals u u' hu
  refine trace_means h.traces _ _ fun k hk' => ?_
  unfold traceLeakage
  rw [hk k hk']

/-- **C169** The noise infidelity of a state transfer is the same on both grids. -/
theorem c169_states (o : Nat) (p p' : SPar n (Fin 1)) (τ τ' : List ℝ) (M M' : MC n (Fin 1)) (h : Refined o p p' τ τ' M M') (cs : Option (List n))
    (T : Matrix (Fin 1) (CompIdx cs) ℂ) (rescale nse : Bool) (y u : Solver.Pulse) (hy : ampsOf p.cfg τ y = some u) (z u' : Solver.Pulse)
    (hz : ampsOf p'.cfg τ' z = some u') (hu : Repeats o (p.xTimes τ).length u u') (y' x y'' x' : Solver.Pulse) :
    mcStateCosts cs T rescale nse M' (p'.xTimes τ') y'' x' u' = mcStateCosts cs T rescale nse M (p.xTimes τ) y' x u := by
  have g := h.given
  have g' := h.given'
  rw [mcStateCosts_value p τ _ h.pulse cs T rescale nse M g.base rfl h.procs g.amp g.ops g.traces g.times y u y' x hy,
    mcStateCosts_value p' τ' _ h.pulse' cs T rescale nse M' g'.base rfl h.procs' g'.amp g'.ops g'.traces g'.times z u' y'' x' hz]
  obtain ⟨w, hk⟩ := h.finals u u' hu
  refine trace_means h.traces _ _ fun k hk' => ?_
  unfold traceStateInfidelity
  rw [w, hk k hk']

/-! ### Gradients -/

/-- The derivative by an amplitude which is repeated is the sum of the derivatives by its repetitions. -/
theorem grad_repeated {N C N' C' o : Nat} (hN : N' = N * o) (hC : C' = C) {f : (Fin N → Fin C → ℝ) → ℝ} {f' : (Fin N' → Fin C' → ℝ) → ℝ}
    (hff : ∀ V V', Repeats o N (rowsOf V) (rowsOf V') → f' V' = f V) {U : Fin N → Fin C → ℝ} {U' : Fin N' → Fin C' → ℝ}
    (hU : Repeats o N (rowsOf U) (rowsOf U')) {L : (Fin N → Fin C → ℝ) →L[ℝ] ℝ} {L' : (Fin N' → Fin C' → ℝ) →L[ℝ] ℝ}
    {g : Fin N → Fin C → ℝ} {g' : Fin N' → Fin C' → ℝ} (h : HasFDerivAt f L U) (h' : HasFDerivAt f' L' U')
    (hg : ∀ V, L V = ∑ t, ∑ c, g t c * V t c) (hg' : ∀ V, L' V = ∑ t, ∑ c, g' t c * V t c) (t : Fin N) (c : Fin C) :
    g t c = ∑ r : Fin o, g' ⟨t * o + r, by
      rw [hN]
      calc (t : Nat) * o + r < t * o + o := by omega
        _ = (t + 1) * o := by ring
        _ ≤ _ := Nat.mul_le_mul_right o t.2⟩ (Fin.cast hC.symm c) := by
  subst hN hC
  let R : (Fin N → Fin C' → ℝ) →L[ℝ] (Fin (N * o) → Fin C' → ℝ) :=
    ContinuousLinearMap.pi fun i => ContinuousLinearMap.proj (R := ℝ) (φ := fun _ : Fin N => Fin C' → ℝ)
      ⟨i / o, Nat.div_lt_of_lt_mul (i.2.trans_eq (mul_comm N o))⟩
  have hR : ∀ V (t : Fin N) (r : Fin o) (hi : t * o + r < N * o), R V ⟨t * o + r, hi⟩ = V t := by
    intro V t r hi
    show V ⟨(t * o + r) / o, _⟩ = V t
    congr 1
    apply Fin.ext
    show ((t : Nat) * o + r) / o = t
    have ho : 0 < o := lt_of_le_of_lt (Nat.zero_le _) r.2
    rw [mul_comm, Nat.mul_add_div ho, Nat.div_eq_of_lt r.2, add_zero]
  have hlt : ∀ (t : Fin N) (r : Fin o), (t : Nat) * o + r < N * o := fun t r => by
    calc (t : Nat) * o + r < t * o + o := by omega
      _ = (t + 1) * o := by ring
      _ ≤ _ := Nat.mul_le_mul_right o t.2
  have hrow : ∀ {A B : Nat} (W : Fin A → Fin B → ℝ) (i : Nat) (hi : i < A), (rowsOf W).getD i [] = List.ofFn (W ⟨i, hi⟩) := by
    intro A B W i hi
    rw [List.getD_eq_getElem _ _ (by simpa [rowsOf] using hi)]
    simp [rowsOf]
  have hrep : ∀ V, Repeats o N (rowsOf V) (rowsOf (R V)) := by
    intro V t ht r hr
    rw [hrow V t ht, hrow (R V) _ (hlt ⟨t, ht⟩ ⟨r, hr⟩)]
    exact congrArg List.ofFn (hR V ⟨t, ht⟩ ⟨r, hr⟩ _)
  have hUR : U' = R U := by
    funext i
    have ho : 0 < o := by
      rcases Nat.eq_zero_or_pos o with rfl | h0
      · exact absurd i.2 (by simp)
      · exact h0
    have ht : (i : Nat) / o < N := Nat.div_lt_of_lt_mul (i.2.trans_eq (mul_comm N o))
    have hi : (i : Nat) / o * o + (i : Nat) % o = i := by rw [mul_comm]; exact Nat.div_add_mod _ _
    have k := hU (i / o) ht (i % o) (Nat.mod_lt _ ho)
    rw [hi, hrow U _ ht, hrow U' _ i.2] at k
    exact List.ofFn_injective k
  have e : f = f' ∘ R := by
    funext V
    exact (hff V (R V) (hrep V)).symm
  have k : HasFDerivAt (f' ∘ R) (L'.comp R) U := by
    refine HasFDerivAt.comp U ?_ R.hasFDerivAt
    rw [← hUR]
    exact h'
  rw [← e] at k
  have := grad_unique (g' := fun t c => ∑ r : Fin o, g' ⟨t * o + r, hlt t r⟩ c) h k hg fun V => by
    show L' (R V) = _
    rw [hg', ← Equiv.sum_comp finProdFinEquiv, Fintype.sum_prod_type]
    refine Finset.sum_congr rfl fun t _ => ?_
    rw [Finset.sum_comm]
    refine Finset.sum_congr rfl fun c _ => ?_
    rw [Finset.sum_mul]
    refine Finset.sum_congr rfl fun r _ => ?_
    have hidx : finProdFinEquiv (t, r) = (⟨t * o + r, hlt t r⟩ : Fin (N * o)) := by
      apply Fin.ext
      simp [finProdFinEquiv]
      ring
    rw [hidx, hR]
  exact congrFun (congrFun this t) c

/-- The gradients if all amplitudes can be reached. -/
theorem gradient_reach (o : Nat) (p p' : SPar n n) (τ τ' : List ℝ) (M M' : MC n n) (h : Refined o p p' τ τ' M M') (happ : p.approx = .none)
    (happ' : p'.approx = .none) (hF : p.L.FrechetOk) (hF' : p'.L.FrechetOk)
    (hreach : ∀ U : Fin (p.xTimes τ).length → Fin p.ctrl.length → ℝ, ∃ y, ampsOf p.cfg τ y = some (rowsOf U))
    (hreach' : ∀ U : Fin (p'.xTimes τ').length → Fin p'.ctrl.length → ℝ, ∃ y, ampsOf p'.cfg τ' y = some (rowsOf U))
    (hp : M.procs = .int 1) (hp' : M'.procs = .int 1) (hK : 0 < M.nTraces) (cl : Closest) (cs : Option (List n)) (hcs : cs ≠ some [])
    (mcu nse : Bool) (hm : mcu = false ∨ cs = none) (T : Matrix (CompIdx cs) (CompIdx cs) ℂ) (y' x y'' x' : Solver.Pulse)
    (U : Fin (p.xTimes τ).length → Fin p.ctrl.length → ℝ) (U' : Fin (p'.xTimes τ').length → Fin p'.ctrl.length → ℝ)
    (hU : Repeats o (p.xTimes τ).length (rowsOf U) (rowsOf U')) :
    ∃ (g : Fin (p.xTimes τ).length → Fin p.ctrl.length → ℝ) (g' : Fin (p'.xTimes τ').length → Fin p'.ctrl.length → ℝ),
      mcGrad cl cs T mcu nse M (p.xTimes τ) y' x (rowsOf U) = .ok (rowsOf g) ∧
      mcGrad cl cs T mcu nse M' (p'.xTimes τ') y'' x' (rowsOf U') = .ok (rowsOf g') ∧
      ∀ t c, g t c = ∑ r : Fin o, g' ⟨t * o + r, by
        rw [h.steps]
        calc (t : Nat) * o + r < t * o + o := by omega
          _ = (t + 1) * o := by ring
          _ ≤ _ := Nat.mul_le_mul_right o t.2⟩ (Fin.cast (by rw [h.ctrl]) c) := by
  have g := h.given
  have g' := h.given'
  have q := h.pulse'
  obtain ⟨b, b1, b2, L, b3, b4⟩ := c93_noise_total p τ h.pulse.valid h.pulse.stable h.pulse.method happ h.pulse.expm hF h.pulse.times hreach M
    ⟨g.base, hp, g.amp, g.ops, g.traces, g.times, hK⟩ cl cs hcs mcu nse hm T y' x U
  obtain ⟨r, d1, d2, L', d3, d4⟩ := c93_noise_total p' τ' q.valid q.stable q.method happ' q.expm hF' q.times
    hreach' M' ⟨g'.base, hp', g'.amp, g'.ops, g'.traces, g'.times, by rw [h.traces]; exact hK⟩ cl cs hcs mcu nse hm T y'' x' U'
  refine ⟨b, r, b1, d1, grad_repeated h.steps (congrArg List.length h.ctrl) (fun A A' hA => ?_) hU b3 d3 b4 d4⟩
  obtain ⟨y, hy⟩ := hreach A
  obtain ⟨z, hz⟩ := hreach' A'
  have := c169_infidelity o p p' τ τ' M M' h cl cs mcu nse T y (rowsOf A) hy z (rowsOf A') hz hA y' x y'' x'
  rw [b2, d2] at this
  exact Except.ok.inj this

/-- The same system with the amplitudes as optimisation parameters. -/
noncomputable def plainPar (p : SPar n m) : SPar n m :=
  ⟨p.L, p.method, p.skew, p.calcDeriv, p.approx, p.init, p.drift, p.ctrl, idTf, id, idAmp⟩

noncomputable def plainMC (p : SPar n m) (M : MC n m) : MC n m :=
  ⟨(plainPar p).cfg, M.hNoise, M.procs, M.noiseAmp, M.nTraces, M.samples⟩

theorem plain_stepControls (p : SPar n m) : stepControls (plainPar p).cfg = stepControls p.cfg := by
  funext G s l
  induction l with
  | nil => rfl
  | cons a l ih =>
    show stepControls _ _ _ _ = stepControls _ _ _ _
    simp only [stepControls, ih]
    rfl

theorem plain_stepDeriv (p : SPar n m) : stepDeriv (plainPar p).cfg = stepDeriv p.cfg := by
  funext a b c d
  unfold stepDeriv
  rw [plain_stepControls]
  rfl

theorem plain_cellsD (p : SPar n m) : cellsD (plainPar p).cfg = cellsD p.cfg := by
  funext a b
  unfold cellsD
  rw [plain_stepDeriv]
  rfl

theorem plain_cells (p : SPar n m) : cells (plainPar p).cfg = cells p.cfg := by
  funext a b
  unfold cells
  rw [plain_cellsD]
  rfl

theorem plain_traceRun (p : SPar n m) : traceRun (plainPar p).cfg = traceRun p.cfg := by
  funext a b c d
  unfold traceRun
  rw [plain_stepDeriv]
  rfl

theorem plain_noiseRun (p : SPar n m) (M : MC n m) (hb : M.base = p.cfg) : noiseRun (plainMC p M) = noiseRun M := by
  funext a b c d e
  obtain ⟨b, hN, pr, na, nt, s⟩ := M
  cases hb
  unfold noiseRun plainMC
  simp only [plain_traceRun]
  rfl

theorem plain_mcGrad (p : SPar n n) (M : MC n n) (hb : M.base = p.cfg) (ha : p.approx = .none) (cl : Closest)
    (cs : Option (List n)) (T : Matrix (CompIdx cs) (CompIdx cs) ℂ) (mcu nse : Bool) (times : List ℝ) (y x u : Solver.Pulse) :
    mcGrad cl cs T mcu nse (plainMC p M) times y x u = mcGrad cl cs T mcu nse M times y x u := by
  have e1 : mcClean (plainMC p M) times u = mcClean M times u := by
    unfold mcClean
    rw [hb]
    show (do
      let f ← specFwd (plainPar p).cfg times u
      let d ← specDeriv (plainPar p).cfg times u
      let dP ← plainDerivs d
      let r ← specRev (plainPar p).cfg times u
      pure (⟨f, dP, r⟩ : Trace n n)) = _
    unfold specFwd specDeriv specRev
    rw [plain_cells, plain_cellsD]
    rw [show (plainPar p).cfg.approx = .none from ha, show p.cfg.approx = .none from ha]
    rfl
  have e2 : mcTraces (plainMC p M) times y x u = mcTraces M times y x u := by
    unfold mcTraces fwdNoise derivsNoise revNoise propsNoise
    rw [plain_noiseRun p M hb]
    rw [hb]
    simp only [show (plainMC p M).base = (plainPar p).cfg from rfl]
    rw [show (plainPar p).cfg.approx = .none from ha, show p.cfg.approx = .none from ha]
    unfold specFwd specRev
    rw [plain_cells]
    rfl
  unfold mcGrad
  rw [e1, e2, hb]
  rfl

theorem plain_pulse {p : SPar n m} {τ : List ℝ} {hN : List (Matrix n n ℂ)} (h : NoisyPulse p τ hN) : NoisyPulse (plainPar p) (p.xTimes τ) hN :=
  ⟨h.valid, h.stable, h.method, h.expm, h.times, h.drift, h.ctrl, h.noise⟩

theorem plain_amps (p : SPar n m) (τ : List ℝ) (hx : p.xTimes τ ≠ []) (U : Fin (p.xTimes τ).length → Fin p.ctrl.length → ℝ) :
    ampsOf (plainPar p).cfg (p.xTimes τ) (rowsOf U) = some (rowsOf U) := by
  obtain ⟨h1, h2⟩ := rowsOf_shape U
  have hy : rowsOf U ≠ [] := by
    intro h0
    rw [h0] at h1
    exact hx (List.length_eq_zero_iff.mp h1.symm)
  obtain ⟨r, r1, r2, r3, r4⟩ := idAmp_ok (rowsOf U) p.ctrl.length hy h2
  have := ampsOf_some (plainPar p).cfg (p.xTimes τ) (rowsOf U) (rowsOf U) r rfl r1 r2 (by rw [r4]; exact h1) r3
  rw [this, r4]

omit [Fintype n] [DecidableEq n] in
theorem plain_procs {p : SPar n m} {M : MC n m} (hb : M.base = p.cfg) (h : M.ProcsOk) : (plainMC p M).ProcsOk := by
  unfold MC.ProcsOk at h ⊢
  rw [hb] at h
  exact h

theorem Refined.plain {o : Nat} {p p' : SPar n m} {τ τ' : List ℝ} {M M' : MC n m} (h : Refined o p p' τ τ' M M') :
    Refined o (plainPar p) (plainPar p') (p.xTimes τ) (p'.xTimes τ') (plainMC p M) (plainMC p' M') :=
  ⟨plain_pulse h.pulse, plain_pulse h.pulse', ⟨rfl, h.given.amp, h.given.ops, h.given.traces, h.given.times⟩,
    ⟨rfl, h.given'.amp, h.given'.ops, h.given'.traces, h.given'.times⟩, plain_procs h.given.base h.procs, plain_procs h.given'.base h.procs', h.init,
    h.ctrl, h.ops, h.traces, h.steps, h.durations,
    h.drift, h.samples⟩

/-- **C169** The entry of the gradient for a step of the coarse grid is the sum of the entries for its parts. -/
theorem c169_gradient (o : Nat) (p p' : SPar n n) (τ τ' : List ℝ) (M M' : MC n n) (h : Refined o p p' τ τ' M M') (happ : p.approx = .none)
    (happ' : p'.approx = .none) (hF : p.L.FrechetOk) (hF' : p'.L.FrechetOk)
    (hp : M.procs = .int 1) (hp' : M'.procs = .int 1) (hK : 0 < M.nTraces) (cl : Closest) (cs : Option (List n)) (hcs : cs ≠ some [])
    (mcu nse : Bool) (hm : mcu = false ∨ cs = none) (T : Matrix (CompIdx cs) (CompIdx cs) ℂ) (y' x y'' x' : Solver.Pulse)
    (U : Fin (p.xTimes τ).length → Fin p.ctrl.length → ℝ) (U' : Fin (p'.xTimes τ').length → Fin p'.ctrl.length → ℝ)
    (hU : Repeats o (p.xTimes τ).length (rowsOf U) (rowsOf U')) :
    ∃ (g : Fin (p.xTimes τ).length → Fin p.ctrl.length → ℝ) (g' : Fin (p'.xTimes τ').length → Fin p'.ctrl.length → ℝ),
      mcGrad cl cs T mcu nse M (p.xTimes τ) y' x (rowsOf U) = .ok (rowsOf g) ∧
      mcGrad cl cs T mcu nse M' (p'.xTimes τ') y'' x' (rowsOf U') = .ok (rowsOf g') ∧
      ∀ t c, g t c = ∑ r : Fin o, g' ⟨t * o + r, by
        rw [h.steps]
        calc (t : Nat) * o + r < t * o + o := by omega
          _ = (t + 1) * o := by ring
          _ ≤ _ := Nat.mul_le_mul_right o t.2⟩ (Fin.cast (by rw [h.ctrl]) c) := by
  obtain ⟨g, g', h1, h2, h3⟩ := gradient_reach o (plainPar p) (plainPar p') (p.xTimes τ) (p'.xTimes τ') (plainMC p M) (plainMC p' M') h.plain happ
    happ' hF hF' (fun V => ⟨rowsOf V, plain_amps p τ h.pulse.times V⟩)
    (fun V => ⟨rowsOf V, plain_amps p' τ' h.pulse'.times V⟩) hp hp' hK cl cs hcs mcu nse hm T y' x y'' x' U U' hU
  exact ⟨g, g', (plain_mcGrad p M h.given.base happ cl cs T mcu nse _ y' x (rowsOf U)).symm.trans h1,
    (plain_mcGrad p' M' h.given'.base happ' cl cs T mcu nse _ y'' x' (rowsOf U')).symm.trans h2, h3⟩

/-! ## Cases -/

namespace Ex169

/-- The qubit of C161 with the transfer function of `OversamplingTF(oversampling=2)`. -/
noncomputable def fine (L : Lapack (Fin 2)) : SPar (Fin 2) (Fin 2) :=
  ⟨L, .frechet, true, true, .none, 1, [!![1, 0; 0, -1], !![1, 0; 0, -1], !![1, 0; 0, -1], !![1, 0; 0, -1], !![1, 0; 0, -1], !![1, 0; 0, -1]],
    [!![0, 1; 1, 0], !![0, -Complex.I; Complex.I, 0]], fun _ y => .ok (y.flatMap fun r => [r, r]), fun τ => τ.flatMap fun s => [s / 2, s / 2], idAmp⟩

/-- The noise samples are repeated. -/
noncomputable def mc (L : Lapack (Fin 2)) : MC (Fin 2) (Fin 2) :=
  ⟨(fine L).cfg, [!![1, 0; 0, -1], !![0, 1; 1, 0]], .int 1, none, 4, ⟨2, 4, 6, fun j k t => j + 2 * k + 8 * ((t / 2 : ℕ) : ℝ)⟩⟩

theorem pulse {L : Lapack (Fin 2)} (hE : L.ExpmOk) : NoisyPulse (fine L) [1, 2, 3] (mc L).hNoise := by
  have h := Ex161.pulse hE
  refine ⟨⟨by simp [fine], rfl, by simp [fine]⟩, Or.inl ⟨rfl, rfl⟩, rfl, hE, by simp [fine], ?_, h.ctrl, Ex161.herm⟩
  intro H hH
  simp only [fine, List.mem_cons, List.not_mem_nil, or_false, or_self] at hH
  subst hH
  exact Ex161.herm _ (by simp)

theorem refined {L : Lapack (Fin 2)} (hE : L.ExpmOk) :
    Refined 2 (qubitPar L .none true) (fine L) [1, 2, 3] [1, 2, 3] (Ex161.mc L) (mc L) where
  pulse := Ex161.pulse hE
  pulse' := pulse hE
  given := Ex161.given L
  given' := ⟨rfl, rfl, rfl, rfl, rfl⟩
  procs := Or.inl rfl
  procs' := Or.inl rfl
  init := rfl
  ctrl := rfl
  ops := rfl
  traces := rfl
  steps := rfl
  durations := by
    intro t ht
    have ht' : t < 3 := ht
    interval_cases t <;> simp [fine, qubitPar, Fin.sum_univ_two] <;> norm_num
  drift := by
    intro t ht r hr
    have ht' : t < 3 := ht
    interval_cases t <;> interval_cases r <;> rfl
  samples := by
    intro j k t r _ _ _ hr
    show (j : ℝ) + 2 * k + 8 * (((t * 2 + r) / 2 : ℕ) : ℝ) = j + 2 * k + 8 * t
    rw [show (t * 2 + r) / 2 = t by omega]

theorem amps (L : Lapack (Fin 2)) : ampsOf (fine L).cfg [1, 2, 3] [[1, 2], [3, 4], [5, 6]] =
    some [[1, 2], [1, 2], [3, 4], [3, 4], [5, 6], [5, 6]] := by
  obtain ⟨r, h1, h2, h3, h4⟩ := idAmp_ok [[1, 2], [1, 2], [3, 4], [3, 4], [5, 6], [5, 6]] 2 (by simp) (by simp)
  have := ampsOf_some (fine L).cfg [1, 2, 3] [[1, 2], [3, 4], [5, 6]] _ r rfl h1 h2 (by rw [h4]; rfl) h3
  rw [this, h4]

/-- `c169_infidelity`, `c169_leakage` and `c169_gradient` apply. -/
example : ∃ L : Lapack (Fin 2), ∀ (cl : Closest) (T : Matrix (Fin 2) (Fin 2) ℂ) (nse : Bool) (U : Fin 3 → Fin 2 → ℝ) (U' : Fin 6 → Fin 2 → ℝ),
    Repeats 2 3 (rowsOf U) (rowsOf U') →
    mcCosts (n := Fin 2) cl none T true nse (mc L) [1 / 2, 1 / 2, 2 / 2, 2 / 2, 3 / 2, 3 / 2] [] [] [[1, 2], [1, 2], [3, 4], [3, 4], [5, 6], [5, 6]] =
      mcCosts (n := Fin 2) cl none T true nse (Ex161.mc L) [1, 2, 3] [] [] [[1, 2], [3, 4], [5, 6]] ∧
    mcLeakCosts [0] (mc L) [1 / 2, 1 / 2, 2 / 2, 2 / 2, 3 / 2, 3 / 2] [] [] [[1, 2], [1, 2], [3, 4], [3, 4], [5, 6], [5, 6]] =
      mcLeakCosts [0] (Ex161.mc L) [1, 2, 3] [] [] [[1, 2], [3, 4], [5, 6]] ∧
    ∃ (g : Fin 3 → Fin 2 → ℝ) (g' : Fin 6 → Fin 2 → ℝ),
      mcGrad (n := Fin 2) cl none T true nse (Ex161.mc L) [1, 2, 3] [] [] (rowsOf U) = .ok (rowsOf g) ∧
      mcGrad (n := Fin 2) cl none T true nse (mc L) [1 / 2, 1 / 2, 2 / 2, 2 / 2, 3 / 2, 3 / 2] [] [] (rowsOf U') = .ok (rowsOf g') ∧
      ∀ c, g 1 c = g' 2 c + g' 3 c := by
  obtain ⟨L, -, -, hE, hF⟩ := lapack_exists (Fin 2)
  have hrep : Repeats 2 3 [[1, 2], [3, 4], [5, 6]] [[1, 2], [1, 2], [3, 4], [3, 4], [5, 6], [5, 6]] := by
    intro t ht r hr
    interval_cases t <;> interval_cases r <;> rfl
  refine ⟨L, fun cl T nse U U' hU => ⟨?_, ?_, ?_⟩⟩
  · exact c169_infidelity 2 (qubitPar L .none true) (fine L) [1, 2, 3] _ (Ex161.mc L) (mc L) (refined hE) cl none true nse T _ _
      (qubitPar_amps L _ _ [[1, 2], [3, 4], [5, 6]] rfl (by simp)) _ _ (amps L) hrep [] [] [] []
  · exact c169_leakage 2 (qubitPar L .none true) (fine L) [1, 2, 3] _ (Ex161.mc L) (mc L) (refined hE) [0] _ _
      (qubitPar_amps L _ _ [[1, 2], [3, 4], [5, 6]] rfl (by simp)) _ _ (amps L) hrep [] [] [] []
  · obtain ⟨g, g', h1, h2, h3⟩ := c169_gradient 2 (qubitPar L .none true) (fine L) [1, 2, 3] _ (Ex161.mc L) (mc L) (refined hE) rfl rfl hF hF
      rfl rfl (by show 0 < 4; norm_num) cl none (by simp) true nse
      (Or.inr rfl) T [] [] [] [] U U' hU
    refine ⟨g, g', h1, h2, fun c => ?_⟩
    have := h3 (1 : Fin 3) c
    rw [Fin.sum_univ_two] at this
    exact this

/-- A state on the finer grid. -/
noncomputable def fineState (L : Lapack (Fin 2)) : SPar (Fin 2) (Fin 1) :=
  ⟨L, .frechet, true, true, .none, !![1; 0], (fine L).drift, (fine L).ctrl, (fine L).tf, (fine L).xTimes, idAmp⟩

noncomputable def mcState (L : Lapack (Fin 2)) : MC (Fin 2) (Fin 1) :=
  ⟨(fineState L).cfg, [!![1, 0; 0, -1]], .int 1, none, 4, ⟨1, 4, 6, fun _ k t => k + ((t / 2 : ℕ) : ℝ)⟩⟩

theorem refinedState {L : Lapack (Fin 2)} (hE : L.ExpmOk) :
    Refined 2 (Ex159.statePar L) (fineState L) [1, 2, 3] [1, 2, 3] (Ex161.mcState L) (mcState L) where
  pulse := Ex159.state hE
  pulse' :=
    let h := pulse hE
    ⟨h.valid, Or.inl ⟨rfl, rfl⟩, rfl, hE, h.times, h.drift, h.ctrl, (Ex159.state hE).noise⟩
  given := Ex161.givenState L
  given' := ⟨rfl, rfl, rfl, rfl, rfl⟩
  procs := Or.inl rfl
  procs' := Or.inl rfl
  init := rfl
  ctrl := rfl
  ops := rfl
  traces := rfl
  steps := rfl
  durations := (refined hE).durations
  drift := (refined hE).drift
  samples := by
    intro j k t r _ _ _ hr
    show (k : ℝ) + (((t * 2 + r) / 2 : ℕ) : ℝ) = k + t
    rw [show (t * 2 + r) / 2 = t by omega]

/-- `c169_states` applies. -/
example : ∃ L : Lapack (Fin 2), ∀ T : Matrix (Fin 1) (Fin 2) ℂ,
    mcStateCosts (n := Fin 2) none T true false (mcState L) [1 / 2, 1 / 2, 2 / 2, 2 / 2, 3 / 2, 3 / 2] [] []
        [[1, 2], [1, 2], [3, 4], [3, 4], [5, 6], [5, 6]] =
      mcStateCosts (n := Fin 2) none T true false (Ex161.mcState L) [1, 2, 3] [] [] [[1, 2], [3, 4], [5, 6]] := by
  obtain ⟨L, -, -, hE, hF⟩ := lapack_exists (Fin 2)
  refine ⟨L, fun T => ?_⟩
  exact c169_states 2 (Ex159.statePar L) (fineState L) [1, 2, 3] [1, 2, 3] (Ex161.mcState L) (mcState L) (refinedState hE) none T true false _ _
    (Ex161.ampsState L) [[1, 2], [3, 4], [5, 6]] [[1, 2], [1, 2], [3, 4], [3, 4], [5, 6], [5, 6]] ((show _ = _ from rfl).trans (amps L)) (by
      intro t ht r hr
      have ht' : t < 3 := ht
      interval_cases t <;> interval_cases r <;> rfl) [] [] [] []

end Ex169

end Verif.Sim
