import Verif.Sim.ConjugationNoise

/-!
# C177: inverse pulses with noise

The pulse with the opposite sign of all Hamiltonians in opposite order performs the inverse operation in every noise trace.
`SchroedingerSMonteCarlo` (solver_algorithms.py:1015-1410), `OperationNoiseInfidelity`, `StateNoiseInfidelity` and
`IncoherentLeakageError` (cost_functions.py:1041-1692).
-/

namespace Verif.Sim
open Verif Verif.Transfer Verif.Operator Verif.Solver Verif.Cost Matrix

variable {n m k : Type} [Fintype n] [DecidableEq n]

/-! ## Specification -/

/-- `M'` simulates the inverse of the system of `M`: all Hamiltonians with the opposite sign; drifts, durations and noise samples in
opposite order. -/
structure Inverse (p : SPar n m) (init : Matrix n k ℂ) (τ : List ℝ) (M : MC n m) (M' : MC n k) : Prop where
  times : p.xTimes τ.reverse = (p.xTimes τ).reverse
  pulse : NoisyPulse p τ M.hNoise
  given : Given M p τ
  given' : Given M' (p.inverted init) τ.reverse
  procs : M.ProcsOk
  procs' : M'.ProcsOk
  ops : M'.hNoise = M.hNoise.map fun H => -H
  traces : M'.nTraces = M.nTraces
  samples : ∀ j k t, j < M.hNoise.length → k < M.nTraces → t < (p.xTimes τ).length →
    M'.samples.val j k t = M.samples.val j k ((p.xTimes τ).length - 1 - t)

/-- `M'` simulates the system of `M`, which has no drift, with the noise samples in opposite order and with the opposite sign. -/
structure Opposite (p : SPar n m) (τ : List ℝ) (M M' : MC n m) : Prop where
  drift : ∀ H ∈ p.drift, H = 0
  times : p.xTimes τ.reverse = (p.xTimes τ).reverse
  pulse : NoisyPulse p τ M.hNoise
  given : Given M p τ
  given' : Given M' p τ.reverse
  procs : M.ProcsOk
  procs' : M'.ProcsOk
  ops : M'.hNoise = M.hNoise
  traces : M'.nTraces = M.nTraces
  samples : ∀ j k t, j < M.hNoise.length → k < M.nTraces → t < (p.xTimes τ).length →
    M'.samples.val j k t = -M.samples.val j k ((p.xTimes τ).length - 1 - t)

/-- The pulse with the opposite sign. -/
def negPulse (u : Solver.Pulse) : Solver.Pulse := u.map fun row => row.map fun x => -x

/-! ## Lemmas -/

/-- The system backwards with the transposed Hamiltonians. -/
def Inverse.back (p : SPar n m) (init : Matrix n k ℂ) (M : MC n m) (M' : MC n k) : MC n k :=
  ⟨(p.mirrored (init.map star)).cfg, M.hNoise.map fun H => Hᵀ, M'.procs, M'.noiseAmp, M'.nTraces, M'.samples⟩

theorem Inverse.backwards {p : SPar n m} {init : Matrix n k ℂ} {τ : List ℝ} {M : MC n m} {M' : MC n k} (h : Inverse p init τ M M') :
    Backwards p (init.map star) τ M (Inverse.back p init M M') where
  times := h.times
  pulse := h.pulse
  given := h.given
  given' := ⟨rfl, h.given'.amp, by simpa [Inverse.back, h.ops] using h.given'.ops, h.given'.traces, h.given'.times⟩
  procs := h.procs
  procs' := by
    have := h.procs'
    unfold MC.ProcsOk at this ⊢
    rw [h.given'.base] at this
    exact this
  ops := rfl
  traces := h.traces
  samples := h.samples

omit [DecidableEq n] in
theorem Inverse.eq {p : SPar n m} [DecidableEq n] {init : Matrix n k ℂ} {τ : List ℝ} {M : MC n m} {M' : MC n k} (h : Inverse p init τ M M') :
    conjugatedMC (p.mirrored (init.map star)) (Inverse.back p init M M') = M' := by
  have hops : ((M.hNoise.map fun H => Hᵀ).map fun H => -H.map star) = M'.hNoise := by
    rw [h.ops, List.map_map]
    exact List.map_congr_left fun H hH => congrArg Neg.neg (h.pulse.noise H hH)
  unfold conjugatedMC Inverse.back
  simp only
  rw [inverted_eq h.pulse.drift h.pulse.ctrl, hops, ← h.given'.base]

omit [Fintype n] [DecidableEq n] in
theorem mirror_amps (p : SPar n m) (X : Matrix n k ℂ) (Y : Matrix n k ℂ) (τ : List ℝ) (y : Solver.Pulse) :
    ampsOf (p.mirrored X).cfg τ y = ampsOf (p.inverted Y).cfg τ y := by
  have : (p.mirrored X).cfg.nCtrl = (p.inverted Y).cfg.nCtrl := (List.length_map _).trans (List.length_map _).symm
  unfold ampsOf
  rw [this]
  rfl

omit [Fintype n] [DecidableEq n] in
theorem inverted_amps (p : SPar n m) (Y : Matrix n k ℂ) (τ : List ℝ) (y : Solver.Pulse) :
    ampsOf (p.inverted Y).cfg τ y = ampsOf p.cfg τ y := by
  have : (p.inverted Y).cfg.nCtrl = p.cfg.nCtrl := List.length_map _
  unfold ampsOf
  rw [this]
  rfl

omit [Fintype n] in
theorem star_one' : (1 : Matrix n n ℂ).map star = 1 := Matrix.map_one _ (star_zero _) (star_one _)

/-! ## The property -/

/-- **C177** The noise infidelity of the inverse pulse with respect to the inverse operation is the same. -/
theorem c177_infidelity (p : SPar n n) (hi : p.init = 1) (τ : List ℝ) (M M' : MC n n) (h : Inverse p (1 : Matrix n n ℂ) τ M M')
    (cl : Closest) (cs : Option (List n)) (mcu nse : Bool) (hm : mcu = false ∨ cs = none) (T : Matrix (CompIdx cs) (CompIdx cs) ℂ)
    (y u : Solver.Pulse) (hu : ampsOf p.cfg τ y = some u) (z : Solver.Pulse) (hz : ampsOf p.cfg τ.reverse z = some u.reverse)
    (y' x y'' x' : Solver.Pulse) :
    mcCosts cl cs Tᴴ mcu nse M' (p.xTimes τ.reverse) y'' x' u.reverse = mcCosts cl cs T mcu nse M (p.xTimes τ) y' x u := by
  have hb := h.backwards
  have he := h.eq
  rw [star_one'] at hb he
  have hz' : ampsOf (p.mirrored (1 : Matrix n n ℂ)).cfg τ.reverse z = some u.reverse :=
    (mirror_amps p 1 1 _ z).trans ((inverted_amps p (1 : Matrix n n ℂ) _ z).trans hz)
  have e1 := c162_infidelity p hi τ M _ hb cl cs mcu nse hm T y u hu z hz' y' x y'' x'
  have e2 := c176_infidelity (p.mirrored (1 : Matrix n n ℂ)) τ.reverse _ hb.pulse' hb.given' hb.procs' cl cs mcu nse hm Tᵀ z u.reverse hz' y'' x' y'' x'
  rw [he] at e2
  exact e2.trans e1

/-- **C177** The leakage of the inverse pulse is the same. -/
theorem c177_leakage (p : SPar n n) (hi : p.init = 1) (τ : List ℝ) (M M' : MC n n) (h : Inverse p (1 : Matrix n n ℂ) τ M M')
    (l : List n) (y u : Solver.Pulse) (hu : ampsOf p.cfg τ y = some u) (z : Solver.Pulse) (hz : ampsOf p.cfg τ.reverse z = some u.reverse)
    (y' x y'' x' : Solver.Pulse) :
    mcLeakCosts l M' (p.xTimes τ.reverse) y'' x' u.reverse = mcLeakCosts l M (p.xTimes τ) y' x u := by
  have hb := h.backwards
  have he := h.eq
  rw [star_one'] at hb he
  have hz' : ampsOf (p.mirrored (1 : Matrix n n ℂ)).cfg τ.reverse z = some u.reverse :=
    (mirror_amps p 1 1 _ z).trans ((inverted_amps p (1 : Matrix n n ℂ) _ z).trans hz)
  have e1 := c162_leakage p hi τ M _ hb l y u hu z hz' y' x y'' x'
  have e2 := c176_leakage (p.mirrored (1 : Matrix n n ℂ)) τ.reverse _ hb.pulse' hb.given' hb.procs' l z u.reverse hz' y'' x' y'' x'
  rw [he] at e2
  exact e2.trans e1

/-- **C177** The inverse pulse takes the target state back to the initial state exactly as well. -/
theorem c177_states (p : SPar n (Fin 1)) (τ : List ℝ) (φ : Matrix n (Fin 1) ℂ) (M M' : MC n (Fin 1)) (h : Inverse p φ τ M M')
    (rescale : Bool) (y u : Solver.Pulse) (hu : ampsOf p.cfg τ y = some u) (z : Solver.Pulse) (hz : ampsOf p.cfg τ.reverse z = some u.reverse)
    (y' x y'' x' : Solver.Pulse) :
    mcStateCosts (n := n) none (asBra (.ket p.init)) rescale false M' (p.xTimes τ.reverse) y'' x' u.reverse =
      mcStateCosts (n := n) none (asBra (.ket φ)) rescale false M (p.xTimes τ) y' x u := by
  have hb := h.backwards
  have hz' : ampsOf (p.mirrored (φ.map star)).cfg τ.reverse z = some u.reverse :=
    (mirror_amps p _ φ _ z).trans ((inverted_amps p φ _ z).trans hz)
  have e1 := c162_states p τ φ M _ hb rescale y u hu z hz' y' x y'' x'
  have e2 := c176_states (p.mirrored (φ.map star)) τ.reverse _ hb.pulse' hb.given' hb.procs' none (asBra (.ket (p.init.map star))) rescale false z
    u.reverse hz' y'' x' y'' x'
  rw [h.eq] at e2
  have hT : (asBra (.ket (p.init.map star)) : Matrix (Fin 1) n ℂ).map star = asBra (.ket p.init) := by
    ext i j
    simp [asBra]
  have e3 : mcStateCosts (n := n) none (asBra (.ket p.init)) rescale false M' (p.xTimes τ.reverse) y'' x' u.reverse = _ :=
    (congrArg (fun B : Matrix (Fin 1) n ℂ => mcStateCosts (n := n) none B rescale false M' (p.xTimes τ.reverse) y'' x' u.reverse) hT).symm.trans e2
  exact e3.trans e1

/-- **C177** The gradient of the noise infidelity of the inverse pulse is the gradient in opposite order. -/
theorem c177_gradient (p : SPar n n) (hi : p.init = 1) (τ : List ℝ) (M M' : MC n n) (h : Inverse p (1 : Matrix n n ℂ) τ M M')
    (happ : p.approx = .none) (hF : p.L.FrechetOk)
    (hreach : ∀ U : Fin (p.xTimes τ).length → Fin p.ctrl.length → ℝ, ∃ y, ampsOf p.cfg τ y = some (rowsOf U))
    (hreach' : ∀ U : Fin (p.xTimes τ.reverse).length → Fin p.ctrl.length → ℝ, ∃ y, ampsOf p.cfg τ.reverse y = some (rowsOf U))
    (hp : M.procs = .int 1) (hp' : M'.procs = .int 1) (hK : 0 < M.nTraces) (cl : Closest) (cs : Option (List n)) (hcs : cs ≠ some [])
    (mcu nse : Bool) (hm : mcu = false ∨ cs = none) (T : Matrix (CompIdx cs) (CompIdx cs) ℂ) (y' x y'' x' : Solver.Pulse)
    (U : Fin (p.xTimes τ).length → Fin p.ctrl.length → ℝ) :
    ∃ g : Fin (p.xTimes τ).length → Fin p.ctrl.length → ℝ, mcGrad cl cs T mcu nse M (p.xTimes τ) y' x (rowsOf U) = .ok (rowsOf g) ∧
      mcGrad cl cs Tᴴ mcu nse M' (p.xTimes τ.reverse) y'' x' (rowsOf U).reverse = .ok (rowsOf g).reverse := by
  have hb := h.backwards
  have he := h.eq
  rw [star_one'] at hb he
  have hN : ((p.mirrored (1 : Matrix n n ℂ)).xTimes τ.reverse).length = (p.xTimes τ).length :=
    (congrArg List.length h.times).trans List.length_reverse
  have hC : (p.mirrored (1 : Matrix n n ℂ)).ctrl.length = p.ctrl.length := List.length_map _
  have key : ∀ {N C N' C' : Nat} (h1 : N' = N) (h2 : C' = C) (U : Fin N → Fin C → ℝ),
      rowsOf (fun t c => U (Fin.cast h1 t).rev (Fin.cast h2 c)) = (rowsOf U).reverse := by
    intro N C N' C' h1 h2 U
    subst h1 h2
    rw [rowsOf_reverse]
    rfl
  have key' : ∀ {N C C' : Nat} (h2 : C' = C) (U : Fin N → Fin C' → ℝ), rowsOf (fun t c => U t (Fin.cast h2.symm c)) = rowsOf U := by
    intro N C C' h2 U
    subst h2
    rfl
  obtain ⟨g, g1, g2⟩ := c162_gradient p hi τ M _ hb happ hF hreach (fun V => by
    obtain ⟨y, hy⟩ := hreach' fun t c => V t (Fin.cast hC.symm c)
    have e : rowsOf (fun t c => V t (Fin.cast hC.symm c)) = rowsOf V := key' hC V
    exact ⟨y, ((mirror_amps p 1 1 _ y).trans (inverted_amps p (1 : Matrix n n ℂ) _ y)).trans (hy.trans (congrArg some e))⟩)
    hp hp' hK cl cs hcs mcu nse hm T y' x y'' x' U
  obtain ⟨G, k1, k2⟩ := c176_gradient (p.mirrored (1 : Matrix n n ℂ)) τ.reverse _ hb.pulse' hb.given' happ hF hp' (by rw [hb.traces]; exact hK) cl
    cs hcs mcu nse hm Tᵀ y'' x' y'' x' (fun t c => U (Fin.cast hN t).rev (Fin.cast hC c))
  rw [key hN hC U] at k1 k2
  rw [g2] at k1
  rw [he, ← Except.ok.inj k1] at k2
  exact ⟨g, g1, k2⟩

/-! ### The same system with the opposite pulse -/

omit [Fintype n] [DecidableEq n] in
theorem ham_neg (cs : List (Matrix n n ℂ)) (row : List ℝ) :
    hamiltonian 0 cs (row.map fun x => -x) = hamiltonian 0 (cs.map fun H => -H) row := by
  unfold hamiltonian
  congr 1
  induction row generalizing cs with
  | nil => rfl
  | cons a row ih =>
    cases cs with
    | nil => rfl
    | cons H cs =>
      rw [List.map_cons, List.map_cons, List.zipWith_cons_cons, List.zipWith_cons_cons, List.sum_cons, List.sum_cons, ih cs]
      simp

/-- The inverse system of `M`. -/
def Opposite.inverse (p : SPar n m) (init : Matrix n k ℂ) (M M' : MC n m) : MC n k :=
  ⟨(p.inverted init).cfg, M.hNoise.map fun H => -H, M'.procs, M'.noiseAmp, M'.nTraces,
    ⟨M'.samples.d0, M'.samples.d1, M'.samples.d2, fun j k t => -M'.samples.val j k t⟩⟩

theorem Opposite.toInverse {p : SPar n m} (init : Matrix n k ℂ) {τ : List ℝ} {M M' : MC n m} (h : Opposite p τ M M') :
    Inverse p init τ M (Opposite.inverse p init M M') where
  times := h.times
  pulse := h.pulse
  given := h.given
  given' := ⟨rfl, h.given'.amp, by simpa [Opposite.inverse, h.ops] using h.given'.ops, h.given'.traces, h.given'.times⟩
  procs := h.procs
  procs' := by
    have := h.procs'
    unfold MC.ProcsOk at this ⊢
    rw [h.given'.base] at this
    exact this
  ops := rfl
  traces := h.traces
  samples := fun j k t hj hk ht => by
    show -M'.samples.val j k t = _
    rw [h.samples j k t hj hk ht, neg_neg]

theorem Inverse.pulse' {p : SPar n m} {init : Matrix n k ℂ} {τ : List ℝ} {M : MC n m} {M' : MC n k} (h : Inverse p init τ M M') :
    NoisyPulse (p.inverted init) τ.reverse M'.hNoise := by
  have q := conj_noisePulse h.backwards.pulse'
  rw [inverted_eq h.pulse.drift h.pulse.ctrl] at q
  rw [show M'.hNoise = _ from congrArg MC.hNoise h.eq.symm]
  exact q

/-- The final operators of the opposite pulse are those of the inverse system. -/
theorem noisyFinal_opposite {p : SPar n m} (X : Matrix n m ℂ) (hX : X = p.init) {σ : List ℝ} (hd : ∀ H ∈ p.drift, H = 0) (hN hN' hN'' : List (Matrix n n ℂ))
    (e' : hN' = hN) (e'' : hN'' = hN.map fun H => -H) (u : Solver.Pulse)
    (z' : Fin hN'.length → Fin (p.xTimes σ).length → ℝ) (z'' : Fin hN''.length → Fin ((p.inverted X).xTimes σ).length → ℝ)
    (hz : ∀ (j : Fin hN'.length) (j' : Fin hN''.length) (t : Fin (p.xTimes σ).length), (j : Nat) = j' → z'' j' t = -z' j t) :
    noisyFinal p hN' σ (negPulse u) z' = noisyFinal (p.inverted X) hN'' σ u z'' := by
  subst e' e'' hX
  have hzero : ∀ (l : List (Matrix n n ℂ)) (t : Nat), (∀ H ∈ l, H = 0) → l.getD t 0 = 0 := by
    intro l t hl
    rw [List.getD]
    cases hg : l[t]? with
    | none => rfl
    | some H => exact hl H (List.mem_of_getElem? hg)
  have hs : noisyStep p hN' σ (negPulse u) z' = noisyStep (p.inverted p.init) (hN'.map fun H => -H) σ u z'' := by
    funext t
    have h1 : p.drift.getD t 0 = 0 := hzero _ _ hd
    have h2 : (p.inverted p.init).drift.getD t 0 = 0 := by
      refine hzero _ _ fun H hH => ?_
      have hH' : H ∈ (p.drift.map fun H => -H).reverse := hH
      rw [List.mem_reverse, List.mem_map] at hH'
      obtain ⟨K, hK, rfl⟩ := hH'
      rw [hd K hK, neg_zero]
    have h3 : (negPulse u).getD t [] = (u.getD t []).map fun x => -x := by
      unfold negPulse
      simp only [List.getD, List.getElem?_map]
      cases u[(t : Nat)]? <;> rfl
    have h4 : ∑ j, ((z' j t : ℝ) : ℂ) • hN'[j] = ∑ j, ((z'' j t : ℝ) : ℂ) • (hN'.map fun H => -H)[j] := by
      refine Fintype.sum_equiv (finCongr (List.length_map _).symm) _ _ fun j => ?_
      rw [hz j _ t rfl]
      simp
    unfold noisyStep
    rw [h1, h3, ham_neg, h4]
    have h5 : hamiltonian ((p.inverted p.init).drift.getD t 0) (p.inverted p.init).ctrl (u.getD t []) =
        hamiltonian 0 (p.ctrl.map fun H => -H) (u.getD t []) := congrArg (fun A => hamiltonian A _ _) h2
    rw [h5]
    rfl
  unfold noisyFinal
  rw [hs]
  rfl

/-- **C177** Without drift the pulse with opposite sign in opposite order performs the inverse operation with the same noise
infidelity on the same system, if the noise has the opposite sign and order. -/
theorem c177_opposite (p : SPar n n) (hi : p.init = 1) (τ : List ℝ) (M M' : MC n n) (h : Opposite p τ M M')
    (cl : Closest) (cs : Option (List n)) (mcu nse : Bool) (hm : mcu = false ∨ cs = none) (T : Matrix (CompIdx cs) (CompIdx cs) ℂ) (l : List n)
    (y u : Solver.Pulse) (hu : ampsOf p.cfg τ y = some u) (z : Solver.Pulse) (hz : ampsOf p.cfg τ.reverse z = some u.reverse)
    (w : Solver.Pulse) (hw : ampsOf p.cfg τ.reverse w = some (negPulse u.reverse)) (y' x y'' x' : Solver.Pulse) :
    mcCosts cl cs Tᴴ mcu nse M' (p.xTimes τ.reverse) y'' x' (negPulse u.reverse) = mcCosts cl cs T mcu nse M (p.xTimes τ) y' x u ∧
    mcLeakCosts l M' (p.xTimes τ.reverse) y'' x' (negPulse u.reverse) = mcLeakCosts l M (p.xTimes τ) y' x u := by
  have hI := h.toInverse (1 : Matrix n n ℂ)
  have g := h.given'
  have g' := hI.given'
  have q' := hI.pulse'
  have hl : (p.xTimes τ.reverse).length = (p.xTimes τ).length := by rw [h.times, List.length_reverse]
  have q : NoisyPulse p τ.reverse M'.hNoise := by
    have b := h.pulse
    refine ⟨⟨b.valid.1, b.valid.2.1.trans hl.symm, b.valid.2.2⟩, b.stable, b.method, b.expm, ?_, b.drift, b.ctrl, by rw [h.ops]; exact b.noise⟩
    intro e
    exact b.times (List.length_eq_zero_iff.mp (hl.symm.trans (by rw [e]; rfl)))
  have hz' : ampsOf (p.inverted (1 : Matrix n n ℂ)).cfg τ.reverse z = some u.reverse := (inverted_amps p (1 : Matrix n n ℂ) _ z).trans hz
  have f0 := noisyFinal_opposite (σ := τ.reverse) (1 : Matrix n n ℂ) hi.symm h.drift M.hNoise M'.hNoise _ h.ops hI.ops u.reverse 0 0
    fun _ _ _ _ => (neg_zero (G := ℝ)).symm
  have fk : ∀ k : Nat, noisyFinal p M'.hNoise τ.reverse (negPulse u.reverse) (traceOf _ _ M'.samples k) =
      noisyFinal (p.inverted (1 : Matrix n n ℂ)) (Opposite.inverse p (1 : Matrix n n ℂ) M M').hNoise τ.reverse u.reverse
        (traceOf _ _ (Opposite.inverse p (1 : Matrix n n ℂ) M M').samples k) := fun k =>
    noisyFinal_opposite (σ := τ.reverse) (1 : Matrix n n ℂ) hi.symm h.drift M.hNoise M'.hNoise _ h.ops hI.ops u.reverse _ _ fun j j' t hj => by
      show -M'.samples.val j' k t = -M'.samples.val j k t
      rw [hj]
  constructor
  · rw [← c177_infidelity p hi τ M _ hI cl cs mcu nse hm T y u hu z hz y' x y'' x',
      mcCosts_value p τ.reverse q.valid q.stable q.method q.expm q.times M' g.base h.procs' g.amp g.ops g.traces g.times cl cs Tᴴ mcu nse w _ y'' x' hw]
    refine Eq.trans ?_ (mcCosts_value _ τ.reverse q'.valid q'.stable q'.method q'.expm q'.times _ g'.base hI.procs' g'.amp g'.ops g'.traces g'.times cl
      cs Tᴴ mcu nse z u.reverse y'' x' hz').symm
    refine trace_means rfl _ _ fun k hk => ?_
    unfold traceInfidelity
    rw [f0, fk k]
  · rw [← c177_leakage p hi τ M _ hI l y u hu z hz y' x y'' x',
      mcLeakCosts_value p τ.reverse _ q l M' g.base rfl h.procs' g.amp g.ops g.traces g.times w _ y'' x' hw]
    refine Eq.trans ?_ (mcLeakCosts_value _ τ.reverse _ q' l _ g'.base rfl hI.procs' g'.amp g'.ops g'.traces g'.times z u.reverse y'' x' hz').symm
    refine trace_means rfl _ _ fun k hk => ?_
    unfold traceLeakage
    rw [fk k]

theorem grad_opposite {N N' C : Nat} (hN : N' = N) {f : (Fin N → Fin C → ℝ) → ℝ} {f' : (Fin N' → Fin C → ℝ) → ℝ}
    (hff : ∀ U : Fin N → Fin C → ℝ, f' (fun t c => -U (Fin.cast hN t).rev c) = f U) {U : Fin N → Fin C → ℝ}
    {L : (Fin N → Fin C → ℝ) →L[ℝ] ℝ} {L' : (Fin N' → Fin C → ℝ) →L[ℝ] ℝ} {g : Fin N → Fin C → ℝ} {g' : Fin N' → Fin C → ℝ}
    (h : HasFDerivAt f L U) (h' : HasFDerivAt f' L' fun t c => -U (Fin.cast hN t).rev c)
    (hg : ∀ W, L W = ∑ t, ∑ c, g t c * W t c) (hg' : ∀ W, L' W = ∑ t, ∑ c, g' t c * W t c) (t : Fin N') (c : Fin C) :
    g' t c = -g (Fin.cast hN t).rev c := by
  subst hN
  let R : (Fin N' → Fin C → ℝ) →L[ℝ] (Fin N' → Fin C → ℝ) := ContinuousLinearMap.pi fun t => ContinuousLinearMap.pi fun c =>
    -((ContinuousLinearMap.proj (R := ℝ) (φ := fun _ : Fin C => ℝ) c).comp (ContinuousLinearMap.proj (R := ℝ) (φ := fun _ : Fin N' => Fin C → ℝ) t.rev))
  have hR : ∀ W t c, R W t c = -W t.rev c := fun _ _ _ => rfl
  have hf : f = fun W => f' (R W) := funext fun W => (hff W).symm
  have hd : HasFDerivAt f (L'.comp R) U := by
    rw [hf]
    exact HasFDerivAt.comp U (g := f') (f := fun W => R W) h' R.hasFDerivAt
  have hL := h.unique hd
  have e := congrArg (fun K : (Fin N' → Fin C → ℝ) →L[ℝ] ℝ => K fun s d => if s = t.rev ∧ d = c then 1 else 0) hL
  simp only [ContinuousLinearMap.comp_apply] at e
  rw [hg, hg'] at e
  simp only [hR] at e
  rw [Finset.sum_eq_single t.rev (fun s _ hs => Finset.sum_eq_zero fun d _ => by simp [hs]) (by simp),
    Finset.sum_eq_single c (fun d _ hd => by simp [hd]) (by simp),
    Finset.sum_eq_single t (fun s _ hs => Finset.sum_eq_zero fun d _ => by simp [hs]) (by simp),
    Finset.sum_eq_single c (fun d _ hd => by simp [hd]) (by simp)] at e
  simp at e
  show g' t c = -g t.rev c
  linarith

theorem rowsOf_opposite {N N' C : Nat} (hN : N' = N) (U : Fin N → Fin C → ℝ) :
    rowsOf (fun t c => -U (Fin.cast hN t).rev c) = negPulse (rowsOf U).reverse := by
  subst hN
  rw [rowsOf_reverse]
  unfold negPulse rowsOf
  rw [List.map_ofFn]
  congr 1
  funext t
  simp only [Function.comp_apply, List.map_ofFn]
  rfl

/-- **C177** The gradient of the opposite pulse is the gradient in opposite order with the opposite sign. -/
theorem c177_opposite_gradient (p : SPar n n) (hi : p.init = 1) (τ : List ℝ) (M M' : MC n n) (h : Opposite p τ M M')
    (happ : p.approx = .none) (hF : p.L.FrechetOk)
    (hreach : ∀ U : Fin (p.xTimes τ).length → Fin p.ctrl.length → ℝ, ∃ y, ampsOf p.cfg τ y = some (rowsOf U))
    (hreach' : ∀ U : Fin (p.xTimes τ.reverse).length → Fin p.ctrl.length → ℝ, ∃ y, ampsOf p.cfg τ.reverse y = some (rowsOf U))
    (hp : M.procs = .int 1) (hp' : M'.procs = .int 1) (hK : 0 < M.nTraces) (cl : Closest) (cs : Option (List n)) (hcs : cs ≠ some [])
    (mcu nse : Bool) (hm : mcu = false ∨ cs = none) (T : Matrix (CompIdx cs) (CompIdx cs) ℂ) (y' x y'' x' : Solver.Pulse)
    (U : Fin (p.xTimes τ).length → Fin p.ctrl.length → ℝ) :
    ∃ g : Fin (p.xTimes τ).length → Fin p.ctrl.length → ℝ, mcGrad cl cs T mcu nse M (p.xTimes τ) y' x (rowsOf U) = .ok (rowsOf g) ∧
      mcGrad cl cs Tᴴ mcu nse M' (p.xTimes τ.reverse) y'' x' (negPulse (rowsOf U).reverse) = .ok (negPulse (rowsOf g).reverse) := by
  have hN : (p.xTimes τ.reverse).length = (p.xTimes τ).length := by rw [h.times, List.length_reverse]
  have q := h.pulse
  have g := h.given
  have g' := h.given'
  have hne : p.xTimes τ.reverse ≠ [] := fun e => q.times (List.length_eq_zero_iff.mp (hN.symm.trans (by rw [e]; rfl)))
  obtain ⟨b, b1, b2, L, b3, b4⟩ := c93_noise_total p τ q.valid q.stable q.method happ q.expm hF q.times hreach M
    ⟨g.base, hp, g.amp, g.ops, g.traces, g.times, hK⟩ cl cs hcs mcu nse hm T y' x U
  obtain ⟨d, d1, d2, L', d3, d4⟩ := c93_noise_total p τ.reverse ⟨q.valid.1, q.valid.2.1.trans hN.symm, q.valid.2.2⟩ q.stable q.method happ q.expm hF
    hne hreach' M' ⟨g'.base, hp', g'.amp, g'.ops, g'.traces, g'.times, by rw [h.traces]; exact hK⟩ cl cs hcs mcu nse hm Tᴴ y'' x'
    (fun t c => -U (Fin.cast hN t).rev c)
  refine ⟨b, b1, ?_⟩
  rw [← rowsOf_opposite hN, d1, ← rowsOf_opposite hN]
  refine congrArg Except.ok (congrArg rowsOf (funext fun t => funext fun c => ?_))
  refine grad_opposite hN (fun A => ?_) b3 d3 b4 d4 t c
  obtain ⟨y, hy⟩ := hreach A
  obtain ⟨w, hw⟩ := hreach' fun t c => -A (Fin.cast hN t).rev c
  obtain ⟨z, hz⟩ := hreach' fun t c => A (Fin.cast hN t).rev c
  have e : rowsOf (fun t c => A (Fin.cast hN t).rev c) = (rowsOf A).reverse := by
    have key : ∀ {N N' C : Nat} (h1 : N' = N) (U : Fin N → Fin C → ℝ), rowsOf (fun t c => U (Fin.cast h1 t).rev c) = (rowsOf U).reverse := by
      intro N N' C h1 U
      subst h1
      rw [rowsOf_reverse]
      rfl
    exact key hN A
  rw [e] at hz
  have hw' := hw
  rw [rowsOf_opposite hN] at hw'
  have := (c177_opposite p hi τ M M' h cl cs mcu nse hm T [] y (rowsOf A) hy z hz w hw' y' x y'' x').1
  rw [b2, ← rowsOf_opposite hN, d2] at this
  exact Except.ok.inj this

/-! ## Cases -/

namespace Ex177

/-- The inverse of the qubit of C161. -/
noncomputable def inv (L : Lapack (Fin 2)) : MC (Fin 2) (Fin 2) :=
  ⟨((qubitPar L .none true).inverted (1 : Matrix (Fin 2) (Fin 2) ℂ)).cfg, [-!![1, 0; 0, -1], -!![0, 1; 1, 0]], .int 1, none, 4,
    ⟨2, 4, 3, fun j k t => j + 2 * k + 8 * ((2 - t : ℕ) : ℝ)⟩⟩

theorem inverse {L : Lapack (Fin 2)} (hE : L.ExpmOk) : Inverse (qubitPar L .none true) 1 [1, 2, 3] (Ex161.mc L) (inv L) :=
  ⟨rfl, Ex161.pulse hE, Ex161.given L, ⟨rfl, rfl, rfl, rfl, rfl⟩, Or.inl rfl, Or.inl rfl, rfl, rfl, fun _ _ _ _ _ _ => rfl⟩

theorem amps (L : Lapack (Fin 2)) (y : Solver.Pulse) (hl : y.length = 3) (hr : ∀ row ∈ y, row.length = 2) :
    ampsOf (qubitPar L .none true).cfg ([1, 2, 3] : List ℝ).reverse y = some y :=
  ampsOf_simple L .frechet true .none 1 _ _ _ y (by rintro rfl; simp at hl) hl hr

/-- Four traces of noise on a qubit with drift and two controls. -/
example : ∃ L : Lapack (Fin 2), ∀ (cl : Closest) (T : Matrix (Fin 2) (Fin 2) ℂ) (nse : Bool) (U : Fin 3 → Fin 2 → ℝ),
    mcCosts (n := Fin 2) cl none Tᴴ true nse (inv L) [3, 2, 1] [] [] [[5, 6], [3, 4], [1, 2]] =
      mcCosts (n := Fin 2) cl none T true nse (Ex161.mc L) [1, 2, 3] [] [] [[1, 2], [3, 4], [5, 6]] ∧
    mcLeakCosts [0] (inv L) [3, 2, 1] [] [] [[5, 6], [3, 4], [1, 2]] = mcLeakCosts [0] (Ex161.mc L) [1, 2, 3] [] [] [[1, 2], [3, 4], [5, 6]] ∧
    ∃ g : Fin 3 → Fin 2 → ℝ, mcGrad (n := Fin 2) cl none T true nse (Ex161.mc L) [1, 2, 3] [] [] (rowsOf U) = .ok (rowsOf g) ∧
      mcGrad (n := Fin 2) cl none Tᴴ true nse (inv L) [3, 2, 1] [] [] (rowsOf U).reverse = .ok (rowsOf g).reverse := by
  obtain ⟨L, -, -, hE, hF⟩ := lapack_exists (Fin 2)
  refine ⟨L, fun cl T nse U => ⟨?_, ?_, ?_⟩⟩
  · exact c177_infidelity (qubitPar L .none true) rfl [1, 2, 3] (Ex161.mc L) (inv L) (inverse hE) cl none true nse (Or.inr rfl) T _ _
      (qubitPar_amps L _ _ [[1, 2], [3, 4], [5, 6]] rfl (by simp)) _ (amps L [[5, 6], [3, 4], [1, 2]] rfl (by simp)) [] [] [] []
  · exact c177_leakage (qubitPar L .none true) rfl [1, 2, 3] (Ex161.mc L) (inv L) (inverse hE) [0] _ _
      (qubitPar_amps L _ _ [[1, 2], [3, 4], [5, 6]] rfl (by simp)) _ (amps L [[5, 6], [3, 4], [1, 2]] rfl (by simp)) [] [] [] []
  · exact c177_gradient (qubitPar L .none true) rfl [1, 2, 3] (Ex161.mc L) (inv L) (inverse hE) rfl hF
      (fun V => ⟨rowsOf V, qubitPar_amps L _ _ _ (rowsOf_shape V).1 (rowsOf_shape V).2⟩)
      (fun V => ⟨rowsOf V, amps L _ (rowsOf_shape V).1 (rowsOf_shape V).2⟩) rfl rfl (by show 0 < 4; norm_num) cl none (by simp) true nse
      (Or.inr rfl) T [] [] [] [] U

/-- From the state `φ` back to the initial state. -/
example : ∃ L : Lapack (Fin 2), ∀ (φ : Matrix (Fin 2) (Fin 1) ℂ),
    let M' : MC (Fin 2) (Fin 1) := ⟨((Ex159.statePar L).inverted φ).cfg, [-!![1, 0; 0, -1]], .int 1, none, 4,
      ⟨1, 4, 3, fun _ k t => k + ((2 - t : ℕ) : ℝ)⟩⟩
    mcStateCosts (n := Fin 2) none (asBra (.ket (!![1; 0] : Matrix (Fin 2) (Fin 1) ℂ))) true false M' [3, 2, 1] [] [] [[5, 6], [3, 4], [1, 2]] =
      mcStateCosts (n := Fin 2) none (asBra (.ket φ)) true false (Ex161.mcState L) [1, 2, 3] [] [] [[1, 2], [3, 4], [5, 6]] := by
  obtain ⟨L, -, -, hE, -⟩ := lapack_exists (Fin 2)
  refine ⟨L, fun φ => ?_⟩
  intro M'
  have h : Inverse (Ex159.statePar L) φ [1, 2, 3] (Ex161.mcState L) M' :=
    ⟨rfl, Ex159.state hE, Ex161.givenState L, ⟨rfl, rfl, rfl, rfl, rfl⟩, Or.inl rfl, Or.inl rfl, rfl, rfl, fun _ _ _ _ _ _ => rfl⟩
  exact c177_states (Ex159.statePar L) [1, 2, 3] φ (Ex161.mcState L) M' h true _ _ (Ex161.ampsState L) [[5, 6], [3, 4], [1, 2]]
    (amps L [[5, 6], [3, 4], [1, 2]] rfl (by simp)) [] [] [] []

/-- The qubit without drift. -/
noncomputable def par (L : Lapack (Fin 2)) : SPar (Fin 2) (Fin 2) := { qubitPar L .none true with drift := [0, 0, 0] }

/-- Noise on the qubit without drift with the samples `v`. -/
noncomputable def mc (L : Lapack (Fin 2)) (v : Nat → Nat → Nat → ℝ) : MC (Fin 2) (Fin 2) :=
  ⟨(par L).cfg, [!![1, 0; 0, -1], !![0, 1; 1, 0]], .int 1, none, 4, ⟨2, 4, 3, v⟩⟩

/-- The pulse with opposite signs on the same qubit. -/
example : ∃ L : Lapack (Fin 2), ∀ (cl : Closest) (T : Matrix (Fin 2) (Fin 2) ℂ) (nse : Bool) (v : Nat → Nat → Nat → ℝ) (U : Fin 3 → Fin 2 → ℝ),
    mcCosts (n := Fin 2) cl none Tᴴ true nse (mc L fun j k t => -v j k (2 - t)) [3, 2, 1] [] [] [[-5, -6], [-3, -4], [-1, -2]] =
      mcCosts (n := Fin 2) cl none T true nse (mc L v) [1, 2, 3] [] [] [[1, 2], [3, 4], [5, 6]] ∧
    ∃ g : Fin 3 → Fin 2 → ℝ, mcGrad (n := Fin 2) cl none T true nse (mc L v) [1, 2, 3] [] [] (rowsOf U) = .ok (rowsOf g) ∧
      mcGrad (n := Fin 2) cl none Tᴴ true nse (mc L fun j k t => -v j k (2 - t)) [3, 2, 1] [] [] (negPulse (rowsOf U).reverse) =
        .ok (negPulse (rowsOf g).reverse) := by
  obtain ⟨L, -, -, hE, hF⟩ := lapack_exists (Fin 2)
  refine ⟨L, fun cl T nse v U => ?_⟩
  have q := Ex161.pulse hE
  have h : Opposite (par L) [1, 2, 3] (mc L v) (mc L fun j k t => -v j k (2 - t)) := by
    refine ⟨by simp [par], rfl, ⟨⟨q.valid.1, rfl, q.valid.2.2⟩, Or.inl ⟨rfl, rfl⟩, rfl, hE, q.times, by simp [par], q.ctrl, q.noise⟩,
      ⟨rfl, rfl, rfl, rfl, rfl⟩, ⟨rfl, rfl, rfl, rfl, rfl⟩, Or.inl rfl, Or.inl rfl, rfl, rfl, fun _ _ _ _ _ _ => rfl⟩
  have ha : ∀ (τ : List ℝ) (y : Solver.Pulse), τ.length = 3 → y.length = 3 → (∀ row ∈ y, row.length = 2) → ampsOf (par L).cfg τ y = some y :=
    fun τ y ht hl hr => ampsOf_simple L .frechet true .none 1 _ _ _ y (by rintro rfl; simp at hl) (hl.trans ht.symm) hr
  refine ⟨(c177_opposite (par L) rfl [1, 2, 3] _ _ h cl none true nse (Or.inr rfl) T [0] _ _ (ha [1, 2, 3] [[1, 2], [3, 4], [5, 6]] rfl rfl (by simp)) _
    (ha [3, 2, 1] [[5, 6], [3, 4], [1, 2]] rfl rfl (by simp)) _ (ha [3, 2, 1] [[-5, -6], [-3, -4], [-1, -2]] rfl rfl (by simp)) [] [] [] []).1, ?_⟩
  exact c177_opposite_gradient (par L) rfl [1, 2, 3] _ _ h rfl hF (fun V => ⟨_, ha [1, 2, 3] _ rfl (rowsOf_shape V).1 (rowsOf_shape V).2⟩)
    (fun V => ⟨_, ha [3, 2, 1] _ rfl (rowsOf_shape V).1 (rowsOf_shape V).2⟩) rfl rfl (by show 0 < 4; norm_num) cl none (by simp) true nse
    (Or.inr rfl) T [] [] [] [] U

end Ex177

end Verif.Sim
