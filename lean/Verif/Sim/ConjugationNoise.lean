import Verif.Sim.Conjugation
import Verif.Sim.MixingNoise

/-!
# C176: conjugated systems with noise

The Monte Carlo solver (solver_algorithms.py:1015-1410) with the Hamiltonians and noise Hamiltonians `-H̄`, and the noise cost functions
(cost_functions.py) with respect to the conjugated operation or state.
-/

namespace Verif.Sim
open Verif Verif.Transfer Verif.Operator Verif.Solver Verif.Cost Matrix

variable {n m : Type} [Fintype n] [DecidableEq n]

/-! ## Specification -/

/-- The Monte Carlo solver of the conjugated system with the same noise traces. -/
def conjugatedMC (p : SPar n m) (M : MC n m) : MC n m :=
  ⟨p.conjugated.cfg, M.hNoise.map fun H => -H.map star, M.procs, M.noiseAmp, M.nTraces, M.samples⟩

/-! ## Lemmas -/

theorem conj_noisePulse {p : SPar n m} {τ : List ℝ} {hN : List (Matrix n n ℂ)} (h : NoisyPulse p τ hN) :
    NoisyPulse p.conjugated τ (hN.map fun H => -H.map star) := by
  have hh : ∀ l : List (Matrix n n ℂ), (∀ H ∈ l, H.IsHermitian) → ∀ H ∈ l.map fun H => -H.map star, H.IsHermitian := by
    intro l hl H hH
    obtain ⟨K, hK, rfl⟩ := List.mem_map.mp hH
    exact conj_hermitian (hl K hK)
  refine ⟨⟨by simpa [SPar.conjugated] using h.valid.1, by simpa [SPar.conjugated] using h.valid.2.1, h.valid.2.2⟩, ?_, h.method, h.expm, h.times,
    hh _ h.drift, hh _ h.ctrl, hh _ h.noise⟩
  rcases h.stable with h1 | ⟨h1, h2, -⟩ | h1
  · exact Or.inl h1
  · refine Or.inr (Or.inl ⟨h1, h2, fun times u t Ds hD => ?_⟩)
    have : (List.replicate times.length ((p.ctrl.map fun H => -H.map star).map fun H => (-Complex.I) • H))[t]? = some Ds := hD
    rw [List.getElem?_replicate] at this
    split at this
    · simp only [Option.some.injEq] at this
      rw [← this]
      simpa using h.valid.1
    · cases this
  · exact Or.inr (Or.inr h1)

omit [Fintype n] [DecidableEq n] in
theorem conj_given {p : SPar n m} {τ : List ℝ} {M : MC n m} (h : Given M p τ) : Given (conjugatedMC p M) p.conjugated τ :=
  ⟨rfl, h.amp, by simpa [conjugatedMC] using h.ops, h.traces, h.times⟩

omit [Fintype n] [DecidableEq n] in
theorem conj_procs {p : SPar n m} {M : MC n m} (hb : M.base = p.cfg) (h : M.ProcsOk) : (conjugatedMC p M).ProcsOk := by
  unfold MC.ProcsOk at h ⊢
  rw [hb] at h
  exact h

omit [Fintype n] [DecidableEq n] in
theorem conj_amps (p : SPar n m) (τ : List ℝ) (y : Solver.Pulse) : ampsOf p.conjugated.cfg τ y = ampsOf p.cfg τ y := by
  have : p.conjugated.cfg.nCtrl = p.cfg.nCtrl := List.length_map _
  unfold ampsOf
  rw [this]
  rfl

theorem noisyFinal_conj {p : SPar n m} {τ : List ℝ} (hd : p.drift.length = (p.xTimes τ).length) (hN : List (Matrix n n ℂ)) (u : Solver.Pulse)
    (z : Fin hN.length → Fin (p.xTimes τ).length → ℝ) (z' : Fin (hN.map fun H => -H.map star).length → Fin (p.xTimes τ).length → ℝ)
    (hz : ∀ j t, z' j t = z (Fin.cast (List.length_map _) j) t) :
    noisyFinal p.conjugated (hN.map fun H => -H.map star) τ u z' = (noisyFinal p hN τ u z).map star := by
  have hs : ∀ t : Fin (p.xTimes τ).length, NormedSpace.exp ((((p.xTimes τ)[t] : ℝ) : ℂ) • (-Complex.I) •
      (hamiltonian ((p.drift.map fun H => -H.map star).getD t 0) (p.ctrl.map fun H => -H.map star) (u.getD t []) +
        ∑ j, ((z' j t : ℝ) : ℂ) • (hN.map fun H => -H.map star)[j])) = (noisyStep p hN τ u z t).map star := by
    intro t
    unfold noisyStep
    rw [← exp_conj]
    have ht : t.1 < p.drift.length := by rw [hd]; exact t.2
    have h1 : (p.drift.map fun H => -H.map star).getD t 0 = -(p.drift.getD t 0).map star := by
      simp [List.getD, List.getElem?_eq_getElem ht]
    have h2 : ∑ j, ((z' j t : ℝ) : ℂ) • (hN.map fun H => -H.map star)[j] = -(∑ j, ((z j t : ℝ) : ℂ) • hN[j]).map star := by
      rw [Fintype.sum_equiv (finCongr (List.length_map _)) _ (fun j => -((((z j t : ℝ) : ℂ) • hN[j]).map star)) fun j => ?_]
      · ext a b
        simp [Matrix.sum_apply]
      · rw [hz]
        ext a b
        simp
    rw [h1, hamiltonian_conj, h2]
    congr 3
    ext a b
    simp
    ring
  have e : List.ofFn (noisyStep p.conjugated (hN.map fun H => -H.map star) τ u z') = (List.ofFn (noisyStep p hN τ u z)).map fun P => P.map star :=
    (congrArg List.ofFn (funext hs)).trans (List.map_ofFn (f := noisyStep p hN τ u z) (g := fun P : Matrix n n ℂ => P.map star)).symm
  refine (congrArg (fun l : List (Matrix n n ℂ) => l.foldl (fun F P => P * F) (p.init.map star)) e).trans ?_
  show _ = ((List.ofFn _).foldl (fun F P => P * F) p.init).map star
  generalize List.ofFn (noisyStep p hN τ u z) = l
  generalize p.init = A
  induction l generalizing A with
  | nil => rfl
  | cons P l ih => rw [List.map_cons, List.foldl_cons, List.foldl_cons, ← conj_mul, ih]

/-- The final operators of all traces. -/
theorem conj_finals {p : SPar n m} {τ : List ℝ} {M : MC n m} (hd : p.drift.length = (p.xTimes τ).length) (u : Solver.Pulse) :
    noisyFinal p.conjugated (conjugatedMC p M).hNoise τ u 0 = (noisyFinal p M.hNoise τ u 0).map star ∧
    ∀ i : Nat, noisyFinal p.conjugated (conjugatedMC p M).hNoise τ u (traceOf _ _ (conjugatedMC p M).samples i) =
      (noisyFinal p M.hNoise τ u (traceOf _ _ M.samples i)).map star :=
  ⟨noisyFinal_conj hd _ u 0 0 fun _ _ => rfl, fun _ => noisyFinal_conj hd _ u _ _ fun _ _ => rfl⟩

omit [DecidableEq n] in
theorem truncTo_conj [DecidableEq n] (cl : Closest) (cs : Option (List n)) (mcu : Bool) (hm : mcu = false ∨ cs = none) (U : Matrix n n ℂ) :
    truncTo cl cs mcu (U.map star) = (truncTo cl cs mcu U).map star := by
  rw [truncTo_eq cl cs mcu hm, truncTo_eq cl cs mcu hm]
  rfl

/-! ## The property -/

/-- **C176** The noise infidelity with respect to the conjugated operation is the same. -/
theorem c176_infidelity (p : SPar n n) (τ : List ℝ) (M : MC n n) (h : NoisyPulse p τ M.hNoise) (g : Given M p τ) (hp : M.ProcsOk)
    (cl : Closest) (cs : Option (List n)) (mcu nse : Bool) (hm : mcu = false ∨ cs = none) (T : Matrix (CompIdx cs) (CompIdx cs) ℂ)
    (y u : Solver.Pulse) (hy : ampsOf p.cfg τ y = some u) (y' x y'' x' : Solver.Pulse) :
    mcCosts cl cs (T.map star) mcu nse (conjugatedMC p M) (p.xTimes τ) y'' x' u = mcCosts cl cs T mcu nse M (p.xTimes τ) y' x u := by
  have q := conj_noisePulse h
  have g' := conj_given g
  have e := mcCosts_value p.conjugated τ q.valid q.stable q.method q.expm q.times (conjugatedMC p M) g'.base (conj_procs g.base hp) g'.amp g'.ops
    g'.traces g'.times cl cs (T.map star) mcu nse y u y'' x' ((conj_amps p τ y).trans hy)
  rw [mcCosts_value p τ h.valid h.stable h.method h.expm h.times M g.base hp g.amp g.ops g.traces g.times cl cs T mcu nse y u y' x hy]
  refine e.trans ?_
  obtain ⟨w, hk⟩ := conj_finals (M := M) h.valid.2.1 u
  refine trace_means rfl _ _ fun k hk' => ?_
  unfold traceInfidelity
  rw [w, hk k, truncTo_conj cl cs mcu hm]
  refine congrArg (fun z : ℝ => 1 - z) (Eq.trans ?_ (entFid_conj cl cs mcu hm _ _))
  cases nse <;> rfl

/-- **C176** The leakage is the same. -/
theorem c176_leakage (p : SPar n n) (τ : List ℝ) (M : MC n n) (h : NoisyPulse p τ M.hNoise) (g : Given M p τ) (hp : M.ProcsOk)
    (l : List n) (y u : Solver.Pulse) (hy : ampsOf p.cfg τ y = some u) (y' x y'' x' : Solver.Pulse) :
    mcLeakCosts l (conjugatedMC p M) (p.xTimes τ) y'' x' u = mcLeakCosts l M (p.xTimes τ) y' x u := by
  have q := conj_noisePulse h
  have g' := conj_given g
  have e := mcLeakCosts_value p.conjugated τ _ q l (conjugatedMC p M) g'.base rfl (conj_procs g.base hp) g'.amp g'.ops g'.traces g'.times y u y'' x'
    ((conj_amps p τ y).trans hy)
  rw [mcLeakCosts_value p τ _ h l M g.base rfl hp g.amp g.ops g.traces g.times y u y' x hy]
  refine e.trans ?_
  obtain ⟨-, hk⟩ := conj_finals (M := M) h.valid.2.1 u
  refine trace_means rfl _ _ fun k hk' => ?_
  unfold traceLeakage
  show 1 - (∑ a : Fin l.length, ∑ b : Fin l.length, ‖noisyFinal p.conjugated (conjugatedMC p M).hNoise τ u (traceOf _ _ (conjugatedMC p M).samples k)
    (l.get b) (l.get a)‖ ^ 2) / (l.length : ℝ) = _
  rw [hk k]
  simp

/-- **C176** The state infidelity with respect to the conjugated state is the same. -/
theorem c176_states (p : SPar n (Fin 1)) (τ : List ℝ) (M : MC n (Fin 1)) (h : NoisyPulse p τ M.hNoise) (g : Given M p τ) (hp : M.ProcsOk)
    (cs : Option (List n)) (T : Matrix (Fin 1) (CompIdx cs) ℂ) (rescale nse : Bool) (y u : Solver.Pulse) (hy : ampsOf p.cfg τ y = some u)
    (y' x y'' x' : Solver.Pulse) :
    mcStateCosts cs (T.map star) rescale nse (conjugatedMC p M) (p.xTimes τ) y'' x' u = mcStateCosts cs T rescale nse M (p.xTimes τ) y' x u := by
  have q : NoisyPulse p.conjugated τ (conjugatedMC p M).hNoise := conj_noisePulse h
  have g' := conj_given g
  have e := mcStateCosts_value p.conjugated τ _ q cs (T.map star) rescale nse (conjugatedMC p M) g'.base rfl (conj_procs g.base hp) g'.amp g'.ops
    g'.traces g'.times y u y'' x' ((conj_amps p τ y).trans hy)
  rw [mcStateCosts_value p τ _ h cs T rescale nse M g.base rfl hp g.amp g.ops g.traces g.times y u y' x hy]
  refine e.trans ?_
  obtain ⟨w, hk⟩ := conj_finals (M := M) h.valid.2.1 u
  refine trace_means rfl _ _ fun k hk' => ?_
  unfold traceStateInfidelity
  rw [w, hk k]
  congr 2
  rw [← norm_star]
  congr 1
  rw [star_sum]
  refine Finset.sum_congr rfl fun i _ => ?_
  cases nse <;> simp

/-- The gradient of the noise infidelity is a derivative. -/
theorem noise_isGradient (p : SPar n n) (τ : List ℝ) (M : MC n n) (h : NoisyPulse p τ M.hNoise) (g : Given M p τ) (happ : p.approx = .none)
    (hF : p.L.FrechetOk) (hp : M.procs = .int 1) (hK : 0 < M.nTraces) (cl : Closest) (cs : Option (List n)) (hcs : cs ≠ some []) (mcu nse : Bool)
    (hm : mcu = false ∨ cs = none) (T : Matrix (CompIdx cs) (CompIdx cs) ℂ) (y' x : Solver.Pulse)
    (V : Fin (p.xTimes τ).length → Fin p.ctrl.length → ℝ) :
    ∃ (a : Fin (p.xTimes τ).length → Fin p.ctrl.length → ℝ) (F : (Fin (p.xTimes τ).length → Fin p.ctrl.length → ℝ) → ℝ)
      (L : (Fin (p.xTimes τ).length → Fin p.ctrl.length → ℝ) →L[ℝ] ℝ), mcGrad cl cs T mcu nse M (p.xTimes τ) y' x (rowsOf V) = .ok (rowsOf a) ∧
      (∀ W, mcCosts cl cs T mcu nse (plainMC p M) (p.xTimes τ) y' x (rowsOf W) = .ok (F W)) ∧ HasFDerivAt F L V ∧
      ∀ W, L W = ∑ t, ∑ k, a t k * W t k := by
  have hr := fun W => (⟨rowsOf W, plain_amps p τ h.times W⟩ : ∃ y, ampsOf (plainPar p).cfg (p.xTimes τ) y = some (rowsOf W))
  have k := plain_pulse h
  obtain ⟨a, b1, b2, L, b3, b4⟩ := c93_noise_total (plainPar p) (p.xTimes τ) k.valid k.stable k.method happ k.expm hF
    k.times hr (plainMC p M) ⟨rfl, hp, g.amp, g.ops, g.traces, g.times, hK⟩ cl cs hcs mcu nse hm T y' x V
  exact ⟨a, _, L, (plain_mcGrad p M g.base happ cl cs T mcu nse _ y' x _).symm.trans b1, b2, b3, b4⟩

/-- **C176** The gradient of the noise infidelity is the same. -/
theorem c176_gradient (p : SPar n n) (τ : List ℝ) (M : MC n n) (h : NoisyPulse p τ M.hNoise) (g : Given M p τ) (happ : p.approx = .none)
    (hF : p.L.FrechetOk) (hp : M.procs = .int 1) (hK : 0 < M.nTraces) (cl : Closest) (cs : Option (List n)) (hcs : cs ≠ some []) (mcu nse : Bool)
    (hm : mcu = false ∨ cs = none) (T : Matrix (CompIdx cs) (CompIdx cs) ℂ) (y' x y'' x' : Solver.Pulse)
    (V : Fin (p.xTimes τ).length → Fin p.ctrl.length → ℝ) :
    ∃ G : Fin (p.xTimes τ).length → Fin p.ctrl.length → ℝ, mcGrad cl cs T mcu nse M (p.xTimes τ) y' x (rowsOf V) = .ok (rowsOf G) ∧
      mcGrad cl cs (T.map star) mcu nse (conjugatedMC p M) (p.xTimes τ) y'' x' (rowsOf V) = .ok (rowsOf G) := by
  have hl : p.conjugated.ctrl.length = p.ctrl.length := List.length_map _
  have q := conj_noisePulse h
  have g' := conj_given g
  have k := plain_pulse h
  have hrow : ∀ {N : Nat} (W : Fin N → Fin p.ctrl.length → ℝ),
      rowsOf (fun t (l : Fin p.conjugated.ctrl.length) => W t (Fin.cast hl l)) = rowsOf W := by
    intro N W
    unfold rowsOf
    congr 1
    funext t
    exact List.ext_getElem (by simp [hl]) fun i h1 h2 => by simp
  have hrow' : ∀ {N : Nat} (W : Fin N → Fin p.conjugated.ctrl.length → ℝ), rowsOf (fun t l => W t (Fin.cast hl.symm l)) = rowsOf W := by
    intro N W
    unfold rowsOf
    congr 1
    funext t
    exact List.ext_getElem (by simp [hl]) fun i h1 h2 => by simp
  obtain ⟨a, F, L, b1, b2, b3, b4⟩ := noise_isGradient p τ M h g happ hF hp hK cl cs hcs mcu nse hm T y' x V
  obtain ⟨r, F', L', d1, d2, d3, d4⟩ := noise_isGradient p.conjugated τ (conjugatedMC p M) q g' happ hF hp hK cl cs hcs mcu nse hm (T.map star) y'' x'
    (fun t l => V (Fin.cast rfl t) (Fin.cast hl l))
  have hmix : ∀ v : Fin p.conjugated.ctrl.length → ℝ,
      mixRow (fun k (l : Fin p.ctrl.length) => if k.1 = l.1 then (1 : ℝ) else 0) (fun _ => 0) v = fun l => v (Fin.cast hl.symm l) := by
    intro v
    funext l
    simp only [mixRow, add_zero]
    rw [Finset.sum_eq_single (Fin.cast hl.symm l)]
    · simp
    · intro k _ hk
      have : ¬ k.1 = l.1 := fun e => hk (Fin.ext e)
      simp [this]
    · simp
  have hN : (p.conjugated.xTimes τ).length = (p.xTimes τ).length := rfl
  have b3' : HasFDerivAt F L fun t => mixRow (fun (k : Fin p.conjugated.ctrl.length) (l : Fin p.ctrl.length) => if k.1 = l.1 then (1 : ℝ) else 0)
      (fun _ => 0) fun l => V (Fin.cast hN (Fin.cast hN.symm t)) (Fin.cast hl l) := by
    simp only [hmix]
    exact b3
  have key : ∀ (t : Fin (p.xTimes τ).length) (k : Fin p.conjugated.ctrl.length),
      r (Fin.cast hN.symm t) k = ∑ l : Fin p.ctrl.length, (if k.1 = l.1 then (1 : ℝ) else 0) * a t l := by
    refine grad_affine (N' := (p.conjugated.xTimes τ).length) (N := (p.xTimes τ).length) (f := F) (f' := F') (L := L) (L' := L') (g := a) (g' := r)
      (V := fun t l => V (Fin.cast hN t) (Fin.cast hl l)) hN (fun (k : Fin p.conjugated.ctrl.length) (l : Fin p.ctrl.length) =>
        if k.1 = l.1 then (1 : ℝ) else 0) (fun _ => 0) (fun W => ?_) b3' d3 b4 d4
    have hy := plain_amps p τ h.times fun t l => W t (Fin.cast hl.symm l)
    have e1 : mcCosts cl cs (T.map star) mcu nse (plainMC p.conjugated (conjugatedMC p M)) (p.xTimes τ) y'' x' (rowsOf W) = .ok (F' W) := d2 W
    have e2 : mcCosts cl cs (T.map star) mcu nse (conjugatedMC (plainPar p) (plainMC p M)) (p.xTimes τ) y'' x'
        (rowsOf fun t l => W t (Fin.cast hl.symm l)) = mcCosts cl cs T mcu nse (plainMC p M) (p.xTimes τ) y' x
        (rowsOf fun t l => W t (Fin.cast hl.symm l)) :=
      c176_infidelity (plainPar p) (p.xTimes τ) (plainMC p M) k ⟨rfl, g.amp, g.ops, g.traces, g.times⟩ (Or.inl hp) cl cs mcu nse hm T _ _ hy
        y' x y'' x'
    have e3 : mcCosts cl cs T mcu nse (plainMC p M) (p.xTimes τ) y' x (rowsOf fun t l => W t (Fin.cast hl.symm l)) = .ok (F _) := b2 _
    have hM : plainMC p.conjugated (conjugatedMC p M) = conjugatedMC (plainPar p) (plainMC p M) := rfl
    rw [hM, ← hrow' W, e2, e3] at e1
    have e := (Except.ok.inj e1).symm
    refine e.trans ?_
    rw [show (fun t l => W t (Fin.cast hl.symm l)) = fun t => mixRow (fun k (l : Fin p.ctrl.length) => if k.1 = l.1 then (1 : ℝ) else 0) (fun _ => 0)
      (W t) from funext fun t => (hmix (W t)).symm]
    rfl
  refine ⟨a, b1, ?_⟩
  have e1 : mcGrad cl cs (T.map star) mcu nse (conjugatedMC p M) (p.xTimes τ) y'' x' (rowsOf fun t (l : Fin p.conjugated.ctrl.length) =>
    V t (Fin.cast hl l)) = .ok (rowsOf r) := d1
  rw [hrow V] at e1
  refine e1.trans (congrArg Except.ok ?_)
  refine Eq.trans ?_ (hrow a)
  congr 1
  funext t k
  refine (key t k).trans ?_
  rw [Finset.sum_eq_single (Fin.cast hl k)]
  · simp
  · intro l _ hl'
    have : ¬ k.1 = l.1 := fun e => hl' (Fin.ext e.symm)
    simp [this]
  · simp

/-! ## Cases -/

/-- The qubit of C161 with noise. -/
example : ∃ L : Lapack (Fin 2), ∀ (cl : Closest) (T : Matrix (Fin 2) (Fin 2) ℂ) (nse : Bool) (V : Fin 3 → Fin 2 → ℝ),
    let M := Ex161.mc L
    let M' := conjugatedMC (qubitPar L .none true) M
    mcCosts (n := Fin 2) cl none (T.map star) true nse M' [1, 2, 3] [] [] [[4, 2], [5, 4], [7, 8]] =
      mcCosts (n := Fin 2) cl none T true nse M [1, 2, 3] [] [] [[4, 2], [5, 4], [7, 8]] ∧
    mcLeakCosts [0] M' [1, 2, 3] [] [] [[4, 2], [5, 4], [7, 8]] = mcLeakCosts [0] M [1, 2, 3] [] [] [[4, 2], [5, 4], [7, 8]] ∧
    ∃ G : Fin 3 → Fin 2 → ℝ, mcGrad (n := Fin 2) cl none T true nse M [1, 2, 3] [] [] (rowsOf V) = .ok (rowsOf G) ∧
      mcGrad (n := Fin 2) cl none (T.map star) true nse M' [1, 2, 3] [] [] (rowsOf V) = .ok (rowsOf G) := by
  obtain ⟨L, -, -, hE, hF⟩ := lapack_exists (Fin 2)
  refine ⟨L, fun cl T nse V => ⟨?_, ?_, ?_⟩⟩
  · exact c176_infidelity (qubitPar L .none true) [1, 2, 3] (Ex161.mc L) (Ex161.pulse hE) (Ex161.given L) (Or.inl rfl) cl none true nse (Or.inr rfl) T
      _ _ (qubitPar_amps L _ _ [[4, 2], [5, 4], [7, 8]] rfl (by simp)) [] [] [] []
  · exact c176_leakage (qubitPar L .none true) [1, 2, 3] (Ex161.mc L) (Ex161.pulse hE) (Ex161.given L) (Or.inl rfl) [0] _ _
      (qubitPar_amps L _ _ [[4, 2], [5, 4], [7, 8]] rfl (by simp)) [] [] [] []
  · exact c176_gradient (qubitPar L .none true) [1, 2, 3] (Ex161.mc L) (Ex161.pulse hE) (Ex161.given L) rfl hF rfl (by show 0 < 4; norm_num) cl none
      (by simp) true nse (Or.inr rfl) T [] [] [] [] V

/-- A state. -/
example : ∃ L : Lapack (Fin 2), ∀ (B : Matrix (Fin 1) (Fin 2) ℂ) (nse : Bool),
    mcStateCosts (n := Fin 2) none (B.map star) true nse (conjugatedMC (Ex159.statePar L) (Ex161.mcState L)) [1, 2, 3] [] [] [[4, 2], [5, 4], [7, 8]] =
      mcStateCosts (n := Fin 2) none B true nse (Ex161.mcState L) [1, 2, 3] [] [] [[4, 2], [5, 4], [7, 8]] := by
  obtain ⟨L, -, -, hE, -⟩ := lapack_exists (Fin 2)
  refine ⟨L, fun B nse => ?_⟩
  have c := Ex172.combinedState hE
  exact c176_states (Ex159.statePar L) [1, 2, 3] (Ex161.mcState L) c.pulse c.given c.procs none B true nse
    [[4, 2], [5, 4], [7, 8]] _ (qubitPar_amps L .none true [[4, 2], [5, 4], [7, 8]] rfl (by simp)) [] [] [] []

end Verif.Sim
