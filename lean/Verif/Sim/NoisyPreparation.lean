import Verif.Sim.Preparation

/-!
# C157: how much noise matters

`OperationNoiseInfidelity` (cost_functions.py:1320-1422), `IncoherentLeakageError` (cost_functions.py:1694-1747) and
`StateNoiseInfidelity` (cost_functions.py:1106-1172) with a Monte Carlo solver (`SchroedingerSMonteCarlo`,
solver_algorithms.py:1055-1330), compared with their counterparts without noise; and the preparation of states under noise by pulses
played one after the other.
-/

namespace Verif.Sim
open Verif Verif.Transfer Verif.Operator Verif.Solver Verif.Cost Matrix

section
open scoped Matrix.Norms.L2Operator
variable {n : Type} [Fintype n] [DecidableEq n]

/-! ## Specification -/

/-- The strength of one trace of the noise: the sum over the time steps of their duration times the sizes of the noise Hamiltonians. -/
noncomputable def noiseStrength (times : List ℝ) (noise : List (Nat → Nat → ℝ)) (hN : List (Matrix n n ℂ)) (k : Nat) : ℝ :=
  (List.zipWith (fun s w => |s| * ∑ j : Fin hN.length, |w j k| * ‖hN[j]‖) times noise).sum

/-- A pulse which is meant to lead to a state, and the noise it is exposed to: for every time step the samples, by noise operator and
trace. -/
structure NoisyPreparation (n : Type) (cs : Option (List n)) extends Preparation n cs where
  noise : List (Nat → Nat → ℝ)

namespace NoisyPreparation
variable {cs : Option (List n)}

/-- The samples as the noise trace generator returns them: operator, trace, time. -/
def samples (g : NoisyPreparation n cs) (ops traces : Nat) : Arr3 := ⟨ops, traces, g.noise.length, fun j k t => g.noise.getD t 0 j k⟩

/-- The Monte Carlo solver for the pulse with the initial state `ψ`. -/
noncomputable def solver (g : NoisyPreparation n cs) (p : SPar n n) (hN : List (Matrix n n ℂ)) (procs : Procs) (K : Nat)
    (ψ : Matrix n (Fin 1) ℂ) : MC n (Fin 1) :=
  ⟨(startedWith { p with drift := g.drift } ψ).bare.cfg, hN, procs, none, K, g.samples hN.length K⟩

/-- What `StateNoiseInfidelity.costs()` returns for the pulse, with the ket of the goal as target (cost_functions.py:1146-1172). The code
reads the propagators without noise only if systematic errors are neglected; here they are always computed, which makes no difference to
the value since the Monte Carlo solver computes them first in any case. -/
noncomputable def infidelity (p : SPar n n) (hN : List (Matrix n n ℂ)) (procs : Procs) (K : Nat) (rescale neglect : Bool)
    (ψ : Matrix n (Fin 1) ℂ) (g : NoisyPreparation n cs) : Except PyErr ℝ := do
  let fwd ← specFwd (g.solver p hN procs K ψ).base g.times g.amps
  let noise ← fwdNoise (g.solver p hN procs K ψ) g.times g.amps [] g.amps
  stateNoiseCosts cs (asBra (.ket fun i _ => g.goal i)) rescale neglect fwd noise

/-- The pulse can be evaluated, and there is noise for all of its time steps. -/
structure Ok (p : SPar n n) (g : NoisyPreparation n cs) : Prop where
  pulse : g.toPreparation.Ok p
  steps : g.noise.length = g.times.length

/-- One pulse after the other; the goal is that of the second one. -/
def andThen (g h : NoisyPreparation n cs) : NoisyPreparation n cs := ⟨g.toPreparation.andThen h.toPreparation, g.noise ++ h.noise⟩

/-- The gate of a pulse, applied to a state. -/
def _root_.Verif.Sim.NoisyGate.prepares (g : NoisyGate n cs) (φ : CompIdx cs → ℂ) : NoisyPreparation n cs :=
  ⟨g.toGate.prepares φ, g.noise⟩

end NoisyPreparation

/-! ## Lemmas -/

variable {cs : Option (List n)}

/-- The drift of one trace. -/
noncomputable def noisyDrift (drift : List (Matrix n n ℂ)) (noise : List (Nat → Nat → ℝ)) (hN : List (Matrix n n ℂ)) (k : Nat) :
    List (Matrix n n ℂ) :=
  List.zipWith (fun H w => H + ∑ j : Fin hN.length, ((w j k : ℝ) : ℂ) • hN[j]) drift noise

omit [Fintype n] [DecidableEq n] in
theorem noisyDrift_hermitian {drift : List (Matrix n n ℂ)} (hd : ∀ H ∈ drift, H.IsHermitian) (noise : List (Nat → Nat → ℝ))
    {hN : List (Matrix n n ℂ)} (hH : ∀ H ∈ hN, H.IsHermitian) (k : Nat) : ∀ H ∈ noisyDrift drift noise hN k, H.IsHermitian := by
  intro H hm
  obtain ⟨i, hi, rfl⟩ := List.mem_iff_getElem.mp hm
  simp only [noisyDrift, List.getElem_zipWith]
  refine (hd _ (List.getElem_mem _)).add ?_
  unfold Matrix.IsHermitian
  rw [Matrix.conjTranspose_sum]
  refine Finset.sum_congr rfl fun j _ => ?_
  have e := (hH hN[(j : Nat)] (List.getElem_mem _)).eq
  rw [Matrix.conjTranspose_smul, Complex.star_def, Complex.conj_ofReal]
  exact congrArg _ e

/-- The difference which the noise of one trace makes. -/
theorem noise_apart (times : List ℝ) (drift : List (Matrix n n ℂ)) (amps : Solver.Pulse) (noise : List (Nat → Nat → ℝ))
    (hN : List (Matrix n n ℂ)) (k : Nat) (ctrl : List (Matrix n n ℂ)) (hd : drift.length = times.length) (ha : amps.length = times.length)
    (hn : noise.length = times.length) :
    apartness (List.zipWith (fun s a => (s, hamiltonian a.1 ctrl a.2)) times ((noisyDrift drift noise hN k).zip amps))
      (List.zipWith (fun s a => (s, hamiltonian a.1 ctrl a.2)) times (drift.zip amps)) ≤ noiseStrength times noise hN k := by
  induction times generalizing drift amps noise with
  | nil => simp [apartness, noiseStrength]
  | cons s times ih =>
    cases drift with
    | nil => simp at hd
    | cons H drift =>
    cases amps with
    | nil => simp at ha
    | cons a amps =>
    cases noise with
    | nil => simp at hn
    | cons w noise =>
    have h := ih drift amps noise (by simpa using hd) (by simpa using ha) (by simpa using hn)
    simp only [apartness, noiseStrength, noisyDrift, List.zipWith_cons_cons, List.zip_cons_cons, List.sum_cons] at h ⊢
    refine add_le_add (mul_le_mul_of_nonneg_left ?_ (abs_nonneg _)) h
    have e : hamiltonian (H + ∑ j : Fin hN.length, ((w j k : ℝ) : ℂ) • hN[j]) ctrl a - hamiltonian H ctrl a =
        ∑ j : Fin hN.length, ((w j k : ℝ) : ℂ) • hN[j] := by
      unfold hamiltonian
      abel
    rw [e]
    refine (norm_sum_le _ _).trans (le_of_eq (Finset.sum_congr rfl fun j _ => ?_))
    rw [norm_smul, Complex.norm_real, Real.norm_eq_abs]

theorem noiseStrength_nonneg (times : List ℝ) (noise : List (Nat → Nat → ℝ)) (hN : List (Matrix n n ℂ)) (k : Nat) :
    0 ≤ noiseStrength times noise hN k := by
  unfold noiseStrength
  refine List.sum_nonneg fun x hx => ?_
  obtain ⟨i, hi, rfl⟩ := List.mem_iff_getElem.mp hx
  rw [List.getElem_zipWith]
  positivity

/-- The operation of a gate is the evolution under its Hamiltonians. -/
theorem Gate.Ok.op_evolve {p : SPar n n} (hi : p.init = 1) {g : Gate n cs} (h : g.Ok p) : g.op p = Sim.evolve (g.hamiltonians p.ctrl) := by
  obtain ⟨f, e1, e2, e3⟩ := h.computes.evolves g.amps h.rows h.cols
  have e4 := e3 _ le_rfl
  rw [List.take_of_length_le (by rw [totals_length h.computes.drift g.amps h.rows])] at e4
  have e5 : f.getLast? = some (Sim.evolve (g.hamiltonians p.ctrl)) := by
    rw [List.getLast?_eq_getElem?, e2, Nat.add_sub_cancel, e4]
    show some (Sim.evolve (g.hamiltonians p.ctrl) * p.init) = _
    rw [hi, Matrix.mul_one]
  unfold Gate.op
  rw [e1]
  exact (last_value e5).2

/-- What the noise of one trace does to the operation of a gate. -/
theorem NoisyGate.Ok.apart {p : SPar n n} {hN : List (Matrix n n ℂ)} {procs : Procs} {K : Nat} (hM : MonteCarlo p hN procs K)
    {g : NoisyGate n cs} (h : g.Ok p) (k : Nat) : ‖(g.trace hN k).op p - g.toGate.op p‖ ≤ noiseStrength g.times g.noise hN k := by
  have ht := h.trace hM.noise k
  rw [ht.op_evolve hM.init, h.gate.op_evolve hM.init]
  have hd : g.drift.length = g.times.length := h.gate.computes.drift
  refine (evolve_apart ?_ (ht.hamiltonians hM.ctrl) (h.gate.hamiltonians hM.ctrl)).trans
    (noise_apart g.times g.drift g.amps g.noise hN k p.ctrl hd h.gate.rows h.steps)
  refine List.ext_getElem (by simp [Gate.hamiltonians, hd, NoisyGate.trace, h.steps, h.gate.rows]) fun i h1 h2 => ?_
  simp [Gate.hamiltonians, NoisyGate.trace]

/-- Values which differ trace by trace by at most the square of the strength of the noise. -/
theorem mean_near {K : Nat} (hK : 0 < K) {x S : Nat → ℝ} {y : ℝ} (hx : ∀ k, 0 ≤ x k) (hy : 0 ≤ y) (hS : ∀ k, 0 ≤ S k)
    (h1 : ∀ k, √(x k) ≤ √y + S k) (h2 : ∀ k, √y ≤ √(x k) + S k) :
    |√(mean ((List.range K).map x)) - √y| ≤ √(mean ((List.range K).map fun k => S k ^ 2)) := by
  have hne : List.range K ≠ [] := by simpa using hK.ne'
  have a1 := sqrt_mean_le (List.range K) x (fun _ => y) (fun k => S k ^ 2) (fun k _ => hx k) (fun _ _ => hy) (fun k _ => sq_nonneg _)
    fun k _ => by rw [Real.sqrt_sq (hS k)]; exact h1 k
  have a2 := sqrt_mean_le (List.range K) (fun _ => y) x (fun k => S k ^ 2) (fun _ _ => hy) (fun k _ => hx k) (fun k _ => sq_nonneg _)
    fun k _ => by rw [Real.sqrt_sq (hS k)]; exact h2 k
  rw [mean_const _ hne] at a1 a2
  rw [abs_sub_le_iff]
  exact ⟨by linarith, by linarith⟩

theorem leakOf_near {l : List n} (hl : l.Nodup) (hne : l ≠ []) {U V : Matrix n n ℂ} (hU : U ∈ Matrix.unitaryGroup n ℂ)
    (hV : V ∈ Matrix.unitaryGroup n ℂ) : √(leakOf l V) ≤ √(leakOf l U) + ‖V - U‖ := by
  have hW : V * Uᴴ ∈ Matrix.unitaryGroup n ℂ := mul_mem hV (Unitary.star_mem hU)
  have hUU : U * Uᴴ = 1 := Matrix.mem_unitaryGroup_iff.mp hU
  have hUU' : Uᴴ * U = 1 := Matrix.mem_unitaryGroup_iff'.mp hU
  have hE : (inclusion (some l))ᴴ * inclusion (some l) = 1 := inclusion_isometry (cs := some l) (by rintro _ ⟨⟩; exact hl)
  have h1 := leakOf_mul hl hne hU hW
  rw [Matrix.mul_assoc, hUU', Matrix.mul_one] at h1
  refine h1.trans (add_le_add le_rfl ?_)
  have hd : (0 : ℝ) < l.length := by exact_mod_cast List.length_pos_iff.mpr hne
  have e : ‖V - U‖ = ‖V * Uᴴ - 1‖ := by
    rw [← hUU, ← Matrix.sub_mul]
    exact (CStarRing.norm_mul_mem_unitary _ (show Uᴴ ∈ unitary _ from Unitary.star_mem hU)).symm
  rw [e]
  refine Real.sqrt_le_iff.mpr ⟨norm_nonneg _, ?_⟩
  have h2 := c43_truncated (fun _ => 0) l hl hne (1 : Matrix (Fin l.length) (Fin l.length) ℂ) (one_mem _) _ hW
  have h3 := idle_infidelity (cs := some l) (fun _ => 0) (by rintro _ ⟨⟩; exact hl) ⟨(⟨0, List.length_pos_iff.mpr hne⟩ : Fin l.length)⟩
    (mcu := false) (Or.inl rfl) hW
  have h4 : leakOf l (V * Uᴴ) ≤ 1 - entFid (fun _ => 0) (some l) 1 (V * Uᴴ) false := by
    unfold leakOf
    exact sub_le_sub_left h2.2.1 1
  exact h4.trans h3

theorem away_near {φ ψ : Matrix n (Fin 1) ℂ} (hφ : ∑ i, ‖φ i 0‖ ^ 2 = 1) (hψ : ∑ i, ‖ψ i 0‖ ^ 2 = 1) {U V : Matrix n n ℂ}
    (hU : U ∈ Matrix.unitaryGroup n ℂ) (hV : V ∈ Matrix.unitaryGroup n ℂ) : √(away φ (V * ψ)) ≤ √(away φ (U * ψ)) + ‖V - U‖ := by
  have e3 : ∀ χ : Matrix n (Fin 1) ℂ, away φ χ = 1 - ‖∑ i, star (φ i 0) * χ i 0‖ ^ 2 := by
    intro χ
    unfold away
    rw [vec_inner, Matrix.trace_fin_one, Matrix.mul_apply]
    rfl
  have key := state_near (t := fun i => star (φ i 0)) (ψ := fun i => (V * ψ) i 0) (φ := fun i => (U * ψ) i 0) (by simpa using hφ)
    (by rw [unitary_column hV, hψ]) (by rw [unitary_column hU, hψ])
  rw [← e3, ← e3] at key
  refine key.trans (add_le_add le_rfl ?_)
  have hcol := column_le (V - U) ψ
  rw [hψ, Real.sqrt_one, mul_one, Matrix.sub_mul] at hcol
  exact hcol

omit [Fintype n] [DecidableEq n] in
theorem last_value' {m : Type} {f : List (Matrix n m ℂ)} {U : Matrix n m ℂ} (h : f.getLast? = some U) : f ≠ [] ∧ f.getLastD 0 = U := by
  cases f with
  | nil => simp at h
  | cons a f => simpa [List.getLast?_cons] using h

namespace NoisyPreparation

/-- What the pulse does in one trace. -/
noncomputable def trace (g : NoisyPreparation n cs) (hN : List (Matrix n n ℂ)) (k : Nat) : Preparation n cs :=
  { g.toPreparation with drift := noisyDrift g.drift g.noise hN k }

/-- The state after the pulse in one trace. -/
noncomputable def final (p : SPar n n) (g : NoisyPreparation n cs) (hN : List (Matrix n n ℂ)) (k : Nat) : Matrix n n ℂ :=
  evolve ((g.trace hN k).hamiltonians p.ctrl)

theorem Ok.trace {p : SPar n n} {g : NoisyPreparation n cs} (h : g.Ok p) {hN : List (Matrix n n ℂ)} (hH : ∀ H ∈ hN, H.IsHermitian) (k : Nat) :
    (g.trace hN k).Ok p := by
  have hd : ∀ H ∈ (g.trace hN k).drift, H.IsHermitian := noisyDrift_hermitian h.pulse.hermitian g.noise hH k
  refine ⟨⟨h.pulse.computes.ctrl, ?_, h.pulse.computes.steps, h.pulse.computes.stable, ?_⟩, h.pulse.rows, h.pulse.cols, hd, h.pulse.goal⟩
  · have : g.drift.length = g.times.length := h.pulse.computes.drift
    show (List.zipWith _ g.drift g.noise).length = g.times.length
    simp [this, h.steps]
  · rcases h.pulse.computes.method with m | m
    · exact Or.inl m
    · exact Or.inr ⟨m.1, m.2.1, m.2.2.1, hd, m.2.2.2.2⟩

theorem Ok.unitary {p : SPar n n} {g : NoisyPreparation n cs} (h : g.Ok p) {hN : List (Matrix n n ℂ)} {procs : Procs} {K : Nat}
    (hM : MonteCarlo p hN procs K) (k : Nat) : g.final p hN k ∈ Matrix.unitaryGroup n ℂ := (h.trace hM.noise k).unitary hM.ctrl

/-- The states without noise and those of the traces. -/
theorem Ok.states {p : SPar n n} {hN : List (Matrix n n ℂ)} {procs : Procs} {K : Nat} (hM : MonteCarlo p hN procs K)
    {g : NoisyPreparation n cs} (h : g.Ok p) (ψ : Matrix n (Fin 1) ℂ) :
    ∃ fc f, specFwd (g.solver p hN procs K ψ).base g.times g.amps = .ok fc ∧
      fwdNoise (g.solver p hN procs K ψ) g.times g.amps [] g.amps = .ok f ∧
      fc.getLast? = some (evolve (g.toPreparation.hamiltonians p.ctrl) * ψ) ∧ (∀ fk ∈ f, fk ≠ []) ∧
      f.map (fun f => f.getLastD 0) = (List.range K).map fun k => g.final p hN k * ψ := by
  have hl : g.drift.length = g.noise.length := by rw [h.steps]; exact h.pulse.computes.drift
  have hne : g.amps ≠ [] := by
    intro h0
    have := h.pulse.rows
    rw [h0] at this
    exact h.pulse.computes.steps (List.length_eq_zero_iff.mp this.symm)
  let q := startedWith { p with drift := g.drift } ψ
  obtain ⟨r, e1, e2, e3, e4⟩ := idAmp_ok g.amps p.ctrl.length hne h.pulse.cols
  have ha := ampsOf_some q.bare.cfg g.times g.amps g.amps r rfl e1 e2 (by rw [e4]; exact h.pulse.rows) e3
  rw [e4] at ha
  have hmeth : p.method ≠ .other := by rcases h.pulse.computes.method with h | h <;> rw [h.1] <;> simp
  have hv : q.bare.Valid g.times := ⟨h.pulse.computes.ctrl, h.pulse.computes.drift, hmeth⟩
  have hst : Stable q.bare.cfg := h.pulse.computes.stable
  obtain ⟨_, f, _, -, c2, -, -, c3, -, c4⟩ := c94_traces q.bare g.times hv g.amps g.amps
    g.amps [] ha h.pulse.computes.steps (g.solver p hN procs K ψ) rfl hM.procs rfl rfl rfl (by exact h.steps)
  -- the final states
  have hfinal : ∀ g' : Preparation n cs, g'.Ok p → ∃ f', (readFwd (startedWith { p with drift := g'.drift } ψ).bare.cfg
      (fresh (startedWith { p with drift := g'.drift } ψ).bare.cfg g'.times g'.amps)).1 = .ok f' ∧
      f'.getLast? = some (evolve (g'.hamiltonians p.ctrl) * ψ) := by
    intro g' h'
    have hcomp : Computes (startedWith { p with drift := g'.drift } ψ) g'.times :=
      ⟨h'.computes.ctrl, h'.computes.drift, h'.computes.steps, h'.computes.stable, h'.computes.method⟩
    obtain ⟨f, e1, e2, e3⟩ := hcomp.evolves g'.amps h'.rows h'.cols
    have e4 := e3 _ le_rfl
    rw [List.take_of_length_le (by rw [totals_length hcomp.drift g'.amps h'.rows])] at e4
    refine ⟨f, e1, ?_⟩
    rw [List.getLast?_eq_getElem?, e2, Nat.add_sub_cancel, e4]
    rfl
  have hnoisy : ∀ k, q.bare.noisy hN (g.samples hN.length K) k = (startedWith { p with drift := (g.trace hN k).drift } ψ).bare := by
    intro k
    have : (g.drift.zipIdx.map fun q => q.1 + noiseHam hN (g.samples hN.length K) k q.2) = (g.trace hN k).drift := by
      refine List.ext_getElem (by simp [NoisyPreparation.trace, noisyDrift, hl]) fun i h1 h2 => ?_
      have hi : i < g.noise.length := by simpa [hl] using h1
      simp only [NoisyPreparation.trace, noisyDrift, List.getElem_map, List.getElem_zipIdx, List.getElem_zipWith, noiseHam, samples,
        Nat.zero_add, List.getD_eq_getElem _ _ hi]
    show SPar.noisy (startedWith { p with drift := g.drift } ψ).bare _ _ _ = _
    unfold SPar.noisy SPar.bare startedWith
    simp only [this]
  obtain ⟨fc, d1, d2⟩ := hfinal g.toPreparation h.pulse
  have hr := ready_fresh q.bare g.times g.amps g.amps ha
  have k1 := (readFwd_ok hst hr.inv).1
  rw [hr.times, d1] at k1
  have htr : ∀ k, k < K → ∃ fk, f[k]? = some fk ∧ fk.getLast? = some (g.final p hN k * ψ) := by
    intro k hk
    obtain ⟨_, fk, _, -, b1, -, -, b2, -⟩ := c4 k hk
    obtain ⟨fk', b3, b4⟩ := hfinal (g.trace hN k) (h.trace hM.noise k)
    have b2' : (readFwd (startedWith { p with drift := (g.trace hN k).drift } ψ).bare.cfg
        (fresh (startedWith { p with drift := (g.trace hN k).drift } ψ).bare.cfg g.times g.amps)).1 = .ok fk := by
      rw [← hnoisy k]
      exact b2
    rw [show (g.trace hN k).times = g.times from rfl, show (g.trace hN k).amps = g.amps from rfl, b2'] at b3
    cases Except.ok.inj b3
    exact ⟨fk, b1, b4⟩
  refine ⟨fc, f, k1.symm, c2, d2, ?_, ?_⟩
  · intro fk hfk
    obtain ⟨k, hk, rfl⟩ := List.mem_iff_getElem.mp hfk
    obtain ⟨fk, b1, b2⟩ := htr k (by rw [c3] at hk; exact hk)
    rw [(List.getElem?_eq_some_iff.mp b1).2]
    exact (last_value' b2).1
  · refine List.ext_getElem (by simp [c3, solver]) fun k h1 h2 => ?_
    obtain ⟨fk, b1, b2⟩ := htr k (by simpa using h2)
    rw [List.getElem_map, List.getElem_map, List.getElem_range, (List.getElem?_eq_some_iff.mp b1).2]
    exact (last_value' b2).2

/-- The value of the noise infidelity. -/
theorem Ok.value {p : SPar n n} {hN : List (Matrix n n ℂ)} {procs : Procs} {K : Nat} (hM : MonteCarlo p hN procs K)
    {g : NoisyPreparation n cs} (h : g.Ok p) (b : Bool) (ψ : Matrix n (Fin 1) ℂ) :
    g.infidelity p hN procs K b false ψ = .ok (mean ((List.range K).map fun k => away (embed cs g.goal) (g.final p hN k * ψ))) := by
  obtain ⟨fc, f, e1, e2, e3, e4, e5⟩ := h.states hM ψ
  unfold infidelity
  rw [e1, e2]
  simp only [bind, Except.bind]
  rw [c80_value cs _ b false fc _ e3 f e4]
  congr 2
  have := congrArg (List.map fun χ => away (embed cs g.goal) χ) e5
  rw [List.map_map, List.map_map] at this
  rw [show (fun k => away (embed cs g.goal) (g.final p hN k * ψ)) = (fun χ => away (embed cs g.goal) χ) ∘ fun k => g.final p hN k * ψ from rfl,
    ← this]
  refine List.map_congr_left fun fk _ => ?_
  simp only [Bool.false_eq_true, if_false, Function.comp, away]
  rw [← embed_inner]
  rfl

theorem Ok.value_neglect {p : SPar n n} {hN : List (Matrix n n ℂ)} {procs : Procs} {K : Nat} (hM : MonteCarlo p hN procs K)
    {g : NoisyPreparation n none} (h : g.Ok p) (b : Bool) (ψ : Matrix n (Fin 1) ℂ) :
    g.infidelity p hN procs K b true ψ =
      .ok (mean ((List.range K).map fun k => away (evolve (g.toPreparation.hamiltonians p.ctrl) * ψ) (g.final p hN k * ψ))) := by
  obtain ⟨fc, f, e1, e2, e3, e4, e5⟩ := h.states hM ψ
  unfold infidelity
  rw [e1, e2]
  simp only [bind, Except.bind]
  rw [c80_value none _ b true fc _ e3 f e4]
  congr 2
  set χ₀ := evolve (g.toPreparation.hamiltonians p.ctrl) * ψ with hχ
  have := congrArg (List.map fun χ => away χ₀ χ) e5
  rw [List.map_map, List.map_map] at this
  rw [show (fun k => away χ₀ (g.final p hN k * ψ)) = (fun χ => away χ₀ χ) ∘ fun k => g.final p hN k * ψ from rfl,
    ← this]
  refine List.map_congr_left fun fk _ => ?_
  simp only [if_true, Function.comp, away]
  rw [vec_inner, Matrix.trace_fin_one, Matrix.mul_apply]
  rfl

theorem Ok.apart {p : SPar n n} {hN : List (Matrix n n ℂ)} {procs : Procs} {K : Nat} (hM : MonteCarlo p hN procs K)
    {g : NoisyPreparation n cs} (h : g.Ok p) (k : Nat) :
    ‖g.final p hN k - evolve (g.toPreparation.hamiltonians p.ctrl)‖ ≤ noiseStrength g.times g.noise hN k := by
  have ht := h.trace hM.noise k
  have hd : g.drift.length = g.times.length := h.pulse.computes.drift
  refine (evolve_apart ?_ (ht.hamiltonians hM.ctrl) (h.pulse.hamiltonians hM.ctrl)).trans
    (noise_apart g.times g.drift g.amps g.noise hN k p.ctrl hd h.pulse.rows h.steps)
  refine List.ext_getElem (by simp [Preparation.hamiltonians, hd, NoisyPreparation.trace, noisyDrift, h.steps, h.pulse.rows]) fun i h1 h2 => ?_
  simp [Preparation.hamiltonians, NoisyPreparation.trace]

theorem Ok.andThen {p : SPar n n} {g h : NoisyPreparation n cs} (hg : g.Ok p) (hh : h.Ok p) {hN : List (Matrix n n ℂ)}
    (hH : ∀ H ∈ hN, H.IsHermitian) : (g.andThen h).Ok p ∧ ∀ k, (g.andThen h).final p hN k = h.final p hN k * g.final p hN k := by
  refine ⟨⟨(hg.pulse.andThen hh.pulse).1, ?_⟩, fun k => ?_⟩
  · show (g.noise ++ h.noise).length = (g.times ++ h.times).length
    rw [List.length_append, List.length_append, hg.steps, hh.steps]
  · have hl : g.drift.length = g.noise.length := by rw [hg.steps]; exact hg.pulse.computes.drift
    have e : (g.andThen h).trace hN k = (g.trace hN k).andThen (h.trace hN k) := by
      simp [NoisyPreparation.trace, NoisyPreparation.andThen, Preparation.andThen, noisyDrift, List.zipWith_append hl]
    unfold final
    rw [e]
    exact ((hg.trace hH k).andThen (hh.trace hH k)).2

end NoisyPreparation

/-! ## C157 -/

/-- **C157** Noise changes the square root of the infidelity of a gate at most by the root mean square of its strength. -/
theorem c157_gate (p : SPar n n) (hN : List (Matrix n n ℂ)) (procs : Procs) (K : Nat) (hM : MonteCarlo p hN procs K) (cl : Closest)
    (cs : Option (List n)) (hcs : ∀ l, cs = some l → l.Nodup) (hne : Nonempty (CompIdx cs)) (mcu : Bool) (hm : mcu = false ∨ cs = none)
    (g : NoisyGate n cs) (h : g.Ok p) :
    ∃ c₀ c : ℝ, g.toGate.infidelity cl mcu p = .ok c₀ ∧ g.infidelity cl mcu false p hN procs K = .ok c ∧ 0 ≤ c₀ ∧ 0 ≤ c ∧
      |√c - √c₀| ≤ √(mean ((List.range K).map fun k => noiseStrength g.times g.noise hN k ^ 2)) := by
  obtain ⟨hU, hv⟩ := h.gate.evolve hM.init hM.ctrl cl mcu
  rw [← h.gate.op_evolve hM.init] at hU hv
  have hV := fun k => ((h.trace hM.noise k).op hM.init hM.ctrl).1
  have nn : ∀ U : Matrix n n ℂ, U ∈ Matrix.unitaryGroup n ℂ → 0 ≤ 1 - entFid cl cs g.target U mcu := fun U hU =>
    (infidelity_mul cl hcs hne hm h.gate.unitary h.gate.unitary hU hU).2.2.2
  refine ⟨_, _, hv, (h.value hM cl mcu).1, nn _ hU, ?_, ?_⟩
  · unfold mean
    refine div_nonneg (List.sum_nonneg fun x hx => ?_) (by positivity)
    obtain ⟨k, -, rfl⟩ := List.mem_map.mp hx
    exact nn _ (hV k)
  · refine mean_near hM.traces (fun k => nn _ (hV k)) (nn _ hU) (fun k => noiseStrength_nonneg _ _ _ k) (fun k => ?_) fun k => ?_
    · have := (infidelity_near cl hcs hne hm h.gate.unitary (hV k) hU).1
      linarith [h.apart hM k]
    · have := (infidelity_near cl hcs hne hm h.gate.unitary (hV k) hU).2
      linarith [h.apart hM k]

/-- **C157** The same for the leakage. -/
theorem c157_leakage (p : SPar n n) (hN : List (Matrix n n ℂ)) (procs : Procs) (K : Nat) (hM : MonteCarlo p hN procs K)
    (l : List n) (hl : l.Nodup) (hne : l ≠ []) (g : NoisyGate n (some l)) (h : g.Ok p) :
    ∃ c₀ c : ℝ, g.toGate.leakage p = .ok c₀ ∧ g.leakage p hN procs K = .ok c ∧ 0 ≤ c₀ ∧ 0 ≤ c ∧
      |√c - √c₀| ≤ √(mean ((List.range K).map fun k => noiseStrength g.times g.noise hN k ^ 2)) := by
  obtain ⟨hv, hv0⟩ := h.gate.leakage hl hne hM.init hM.ctrl
  have hU := (h.gate.op hM.init hM.ctrl).1
  have hV := fun k => ((h.trace hM.noise k).op hM.init hM.ctrl).1
  refine ⟨_, _, hv, h.leakage hM, hv0, ?_, ?_⟩
  · unfold mean
    refine div_nonneg (List.sum_nonneg fun x hx => ?_) (by positivity)
    obtain ⟨k, -, rfl⟩ := List.mem_map.mp hx
    exact (leakOf_range (hV k) l hl hne).1
  · refine mean_near hM.traces (fun k => (leakOf_range (hV k) l hl hne).1) hv0 (fun k => noiseStrength_nonneg _ _ _ k) (fun k => ?_) fun k => ?_
    · have := leakOf_near hl hne hU (hV k)
      linarith [h.apart hM k]
    · have := leakOf_near hl hne (hV k) hU
      rw [norm_sub_rev] at this
      linarith [h.apart hM k]

/-- **C157** The same for the preparation of a state. -/
theorem c157_state (p : SPar n n) (hN : List (Matrix n n ℂ)) (procs : Procs) (K : Nat) (hM : MonteCarlo p hN procs K)
    (cs : Option (List n)) (hcs : ∀ l, cs = some l → l.Nodup) (b : Bool) (ψ : Matrix n (Fin 1) ℂ) (hψ : ∑ i, ‖ψ i 0‖ ^ 2 = 1)
    (g : NoisyPreparation n cs) (h : g.Ok p) :
    ∃ c₀ c : ℝ, g.toPreparation.infidelity p b ψ = .ok c₀ ∧ g.infidelity p hN procs K b false ψ = .ok c ∧ 0 ≤ c₀ ∧ 0 ≤ c ∧
      |√c - √c₀| ≤ √(mean ((List.range K).map fun k => noiseStrength g.times g.noise hN k ^ 2)) := by
  have hU := h.pulse.unitary hM.ctrl
  have n1 := embed_normalised hcs h.pulse
  have nn : ∀ U : Matrix n n ℂ, U ∈ Matrix.unitaryGroup n ℂ → 0 ≤ away (embed cs g.goal) (U * ψ) := fun U hU =>
    away_nonneg n1 (by rw [unitary_column hU, hψ])
  refine ⟨_, _, h.pulse.value b ψ, h.value hM b ψ, nn _ hU, ?_, ?_⟩
  · unfold mean
    refine div_nonneg (List.sum_nonneg fun x hx => ?_) (by positivity)
    obtain ⟨k, -, rfl⟩ := List.mem_map.mp hx
    exact nn _ (h.unitary hM k)
  · refine mean_near hM.traces (fun k => nn _ (h.unitary hM k)) (nn _ hU) (fun k => noiseStrength_nonneg _ _ _ k) (fun k => ?_) fun k => ?_
    · have := away_near n1 hψ hU (h.unitary hM k)
      linarith [h.apart hM k]
    · have := away_near n1 hψ (h.unitary hM k) hU
      rw [norm_sub_rev] at this
      linarith [h.apart hM k]

/-- **C157** With systematic errors neglected the infidelity is at most the mean square of the strength of the noise. -/
theorem c157_neglect (p : SPar n n) (hN : List (Matrix n n ℂ)) (procs : Procs) (K : Nat) (hM : MonteCarlo p hN procs K) (b : Bool)
    (ψ : Matrix n (Fin 1) ℂ) (hψ : ∑ i, ‖ψ i 0‖ ^ 2 = 1) (g : NoisyPreparation n none) (h : g.Ok p) :
    ∃ c : ℝ, g.infidelity p hN procs K b true ψ = .ok c ∧ 0 ≤ c ∧
      c ≤ mean ((List.range K).map fun k => noiseStrength g.times g.noise hN k ^ 2) := by
  have hU := h.pulse.unitary hM.ctrl
  have hn : ∑ i, ‖(evolve (g.toPreparation.hamiltonians p.ctrl) * ψ) i 0‖ ^ 2 = 1 := by rw [unitary_column hU, hψ]
  have hk : ∀ k, 0 ≤ away (evolve (g.toPreparation.hamiltonians p.ctrl) * ψ) (g.final p hN k * ψ) ∧
      away (evolve (g.toPreparation.hamiltonians p.ctrl) * ψ) (g.final p hN k * ψ) ≤ noiseStrength g.times g.noise hN k ^ 2 := by
    intro k
    have h0 := away_nonneg hn (by rw [unitary_column (h.unitary hM k), hψ] : ∑ i, ‖(g.final p hN k * ψ) i 0‖ ^ 2 = 1)
    refine ⟨h0, ?_⟩
    have h1 := away_near hn hψ hU (h.unitary hM k)
    have h2 : away (evolve (g.toPreparation.hamiltonians p.ctrl) * ψ) (evolve (g.toPreparation.hamiltonians p.ctrl) * ψ) = 0 := by
      unfold away
      have hv : ‖vec (evolve (g.toPreparation.hamiltonians p.ctrl) * ψ)‖ = 1 := by
        have := norm_vec_ket (evolve (g.toPreparation.hamiltonians p.ctrl) * ψ)
        rw [hn] at this
        exact (sq_eq_sq₀ (norm_nonneg _) zero_le_one).mp (this.trans (one_pow 2).symm)
      rw [inner_self_eq_norm_sq_to_K, hv]
      simp
    rw [h2, Real.sqrt_zero, zero_add] at h1
    have h3 := h1.trans (h.apart hM k)
    exact (Real.sqrt_le_left (noiseStrength_nonneg _ _ _ k)).mp h3
  refine ⟨_, h.value_neglect hM b ψ, ?_, ?_⟩
  · unfold mean
    refine div_nonneg (List.sum_nonneg fun x hx => ?_) (by positivity)
    obtain ⟨k, -, rfl⟩ := List.mem_map.mp hx
    exact (hk k).1
  · unfold mean
    simp only [List.length_map]
    exact div_le_div_of_nonneg_right (List.sum_le_sum fun k _ => (hk k).2) (by positivity)

/-- Two noisy pulses, one after the other. -/
theorem two_noisy_preparations (p : SPar n n) (hN : List (Matrix n n ℂ)) (procs : Procs) (K : Nat) (hM : MonteCarlo p hN procs K)
    (hcs : ∀ l, cs = some l → l.Nodup) (b : Bool) (ψ : Matrix n (Fin 1) ℂ) (hψ : ∑ i, ‖ψ i 0‖ ^ 2 = 1)
    (g h : NoisyPreparation n cs) (hg : g.Ok p) (hh : h.Ok p) :
    ∃ c₁ c₂ c : ℝ, g.infidelity p hN procs K b false ψ = .ok c₁ ∧ h.infidelity p hN procs K b false (embed cs g.goal) = .ok c₂ ∧
      (g.andThen h).infidelity p hN procs K b false ψ = .ok c ∧ 0 ≤ c₁ ∧ 0 ≤ c₂ ∧ 0 ≤ c ∧ √c ≤ √c₁ + √c₂ ∧ √c₁ ≤ √c + √c₂ ∧ √c₂ ≤ √c + √c₁ := by
  obtain ⟨hgh, e⟩ := hg.andThen hh hM.noise
  have v := hgh.value hM b ψ
  simp only [e, Matrix.mul_assoc] at v
  have n1 := embed_normalised hcs hg.pulse
  have n2 := embed_normalised hcs hh.pulse
  have n3 : ∀ k, ∑ i, ‖(g.final p hN k * ψ) i 0‖ ^ 2 = 1 := fun k => by rw [unitary_column (hg.unitary hM k), hψ]
  have n4 : ∀ k, ∑ i, ‖(h.final p hN k * (g.final p hN k * ψ)) i 0‖ ^ 2 = 1 := fun k => by rw [unitary_column (hh.unitary hM k), n3]
  have n5 : ∀ k, ∑ i, ‖(h.final p hN k * embed cs g.goal) i 0‖ ^ 2 = 1 := fun k => by rw [unitary_column (hh.unitary hM k), n1]
  have k : ∀ k, away (h.final p hN k * embed cs g.goal) (h.final p hN k * (g.final p hN k * ψ)) = away (embed cs g.goal) (g.final p hN k * ψ) := by
    intro k
    unfold away
    rw [inner_unitary (hh.unitary hM k)]
  have m : ∀ {f : Nat → ℝ}, (∀ k, 0 ≤ f k) → 0 ≤ mean ((List.range K).map f) := by
    intro f hf
    unfold mean
    refine div_nonneg (List.sum_nonneg fun x hx => ?_) (by positivity)
    obtain ⟨k, -, rfl⟩ := List.mem_map.mp hx
    exact hf k
  have p1 : ∀ k, 0 ≤ away (embed cs g.goal) (g.final p hN k * ψ) := fun k => away_nonneg n1 (n3 k)
  have p2 : ∀ k, 0 ≤ away (embed cs h.goal) (h.final p hN k * embed cs g.goal) := fun k => away_nonneg n2 (n5 k)
  have p3 : ∀ k, 0 ≤ away (embed cs h.goal) (h.final p hN k * (g.final p hN k * ψ)) := fun k => away_nonneg n2 (n4 k)
  refine ⟨_, _, _, hg.value hM b ψ, hh.value hM b _, v, m p1, m p2, m p3, ?_, ?_, ?_⟩
  · refine sqrt_mean_le _ _ _ _ (fun k _ => p3 k) (fun k _ => p1 k) (fun k _ => p2 k) fun j _ => ?_
    have t := away_triangle n2 (n5 j) (n4 j)
    rwa [k] at t
  · refine sqrt_mean_le _ _ _ _ (fun k _ => p1 k) (fun k _ => p3 k) (fun k _ => p2 k) fun j _ => ?_
    have t := away_triangle (n5 j) n2 (n4 j)
    rwa [k, away_symm _ (embed cs h.goal)] at t
  · refine sqrt_mean_le _ _ _ _ (fun k _ => p2 k) (fun k _ => p3 k) (fun k _ => p1 k) fun j _ => ?_
    have t := away_triangle n2 (n4 j) (n5 j)
    rw [away_symm (h.final p hN j * (g.final p hN j * ψ)), k] at t
    exact t.trans (add_comm _ _).le

/-- **C157** The square roots of the noise infidelities of two pulses add up at most, and none of the two hides the error of the other. -/
theorem c157_sequence (p : SPar n n) (hN : List (Matrix n n ℂ)) (procs : Procs) (K : Nat) (hM : MonteCarlo p hN procs K)
    (cs : Option (List n)) (hcs : ∀ l, cs = some l → l.Nodup) (b : Bool) (ψ : Matrix n (Fin 1) ℂ) (hψ : ∑ i, ‖ψ i 0‖ ^ 2 = 1)
    (g h : NoisyPreparation n cs) (hg : g.Ok p) (hh : h.Ok p) :
    ∃ c₁ c₂ c : ℝ, g.infidelity p hN procs K b false ψ = .ok c₁ ∧ h.infidelity p hN procs K b false (embed cs g.goal) = .ok c₂ ∧
      (g.andThen h).infidelity p hN procs K b false ψ = .ok c ∧ |√c₁ - √c₂| ≤ √c ∧ √c ≤ √c₁ + √c₂ := by
  obtain ⟨c₁, c₂, c, e1, e2, e3, -, -, -, e4, e5, e6⟩ := two_noisy_preparations p hN procs K hM hcs b ψ hψ g h hg hh
  exact ⟨c₁, c₂, c, e1, e2, e3, by rw [abs_le]; constructor <;> linarith, e4⟩

/-- **C157** A gate applied to a prepared state, both with noise. -/
theorem c157_gate_on_state (p : SPar n n) (hN : List (Matrix n n ℂ)) (procs : Procs) (K : Nat) (hM : MonteCarlo p hN procs K) (cl : Closest)
    (cs : Option (List n)) (hcs : ∀ l, cs = some l → l.Nodup) (mcu b : Bool) (hm : mcu = false ∨ cs = none) (ψ : Matrix n (Fin 1) ℂ)
    (hψ : ∑ i, ‖ψ i 0‖ ^ 2 = 1) (g : NoisyPreparation n cs) (hg : g.Ok p) (t : NoisyGate n cs) (ht : t.Ok p) :
    ∃ c₁ c₂ c : ℝ, g.infidelity p hN procs K b false ψ = .ok c₁ ∧ t.infidelity cl mcu false p hN procs K = .ok c₂ ∧
      (g.andThen (t.prepares g.goal)).infidelity p hN procs K b false ψ = .ok c ∧ 0 ≤ c₁ ∧ 0 ≤ c₂ ∧ √c ≤ √c₁ + √(dim cs * c₂) := by
  have hgoal : ∑ i, ‖∑ a, t.target i a * g.goal a‖ ^ 2 = 1 := (sum_sq_unitary ht.gate.unitary g.goal).trans hg.pulse.goal
  have hk : (t.prepares g.goal).Ok p := ⟨⟨ht.gate.computes, ht.gate.rows, ht.gate.cols, ht.gate.hermitian, hgoal⟩, ht.steps⟩
  obtain ⟨c₁, c₂, c, e1, e2, e3, e4, e5, -, e7, -, -⟩ := two_noisy_preparations p hN procs K hM hcs b ψ hψ g _ hg hk
  have hne : Nonempty (CompIdx cs) := by
    by_contra hn
    rw [not_nonempty_iff] at hn
    have := hg.pulse.goal
    simp at this
  obtain ⟨c', f1, f2⟩ := NoisyGate.noisy_nonneg hM cl hcs hne hm ht
  refine ⟨c₁, c', c, e1, f1, e3, e4, f2, e7.trans (add_le_add le_rfl (Real.sqrt_le_sqrt ?_))⟩
  rw [hk.value hM b _] at e2
  rw [(ht.value hM cl mcu).1] at f1
  rw [← Except.ok.inj e2, ← Except.ok.inj f1]
  have hfin : ∀ k, (t.prepares g.goal).final p hN k = (t.trace hN k).op p := by
    intro k
    rw [(ht.trace hM.noise k).op_evolve hM.init]
    rfl
  unfold mean
  simp only [List.length_map, List.length_range, hfin]
  rw [mul_div_assoc', ← List.sum_map_mul_left]
  refine div_le_div_of_nonneg_right (List.sum_le_sum fun k _ => ?_) (by positivity)
  exact state_of_operation cl hm hcs ht.gate.unitary ((ht.trace hM.noise k).op hM.init hM.ctrl).1 hg.pulse.goal

/-! ### The bounds cannot be improved -/

namespace Ex157
open Ex115 Ex155 Ex156

/-- The noise operator. -/
def X : Matrix (Fin 2) (Fin 2) ℂ := !![0, 1; 1, 0]

theorem X_hermitian : X.IsHermitian := by
  ext i j
  fin_cases i <;> fin_cases j <;> simp [X]

theorem X_norm : ‖X‖ = 1 := by
  refine CStarRing.norm_of_mem_unitary (U := X) ?_
  show X ∈ Matrix.unitaryGroup (Fin 2) ℂ
  rw [Matrix.mem_unitaryGroup_iff]
  ext i j
  fin_cases i <;> fin_cases j <;> simp [X, Matrix.mul_apply, Fin.sum_univ_two]

/-- Waiting while the noise acts. -/
noncomputable def waiting (cs : Option (List (Fin 2))) (δ : ℝ) : NoisyGate (Fin 2) cs := ⟨⟨[0], [1], [[0, 0]], 1⟩, [fun _ _ => δ]⟩

theorem waiting_ok {L : Lapack (Fin 2)} (h : L.EighOk) (cs : Option (List (Fin 2))) (δ : ℝ) : (waiting cs δ).Ok (par L []) :=
  ⟨⟨computes h _ (by simp [waiting]) _ (by simp [waiting]) rfl, rfl, by simp [waiting, par], by simp [waiting], one_mem _⟩, rfl⟩

theorem mc (L : Lapack (Fin 2)) (K : Nat) (hK : 0 < K) : MonteCarlo (par L []) [X] (.int 1) K :=
  ⟨rfl, Ex93.ctrl_hermitian L, by simpa using X_hermitian, Or.inl rfl, hK⟩

theorem evolve_waiting (L : Lapack (Fin 2)) (cs : Option (List (Fin 2))) (δ : ℝ) (k : Nat) :
    evolve (((waiting cs δ).trace [X] k).hamiltonians (par L []).ctrl) = rot δ := by
  have h : ((waiting cs δ).trace [X] k).hamiltonians (par L []).ctrl = [(1, (δ : ℂ) • X)] := by
    simp only [waiting, NoisyGate.trace, Gate.hamiltonians, List.zipWith_cons_cons, List.zip_cons_cons, List.zip_nil_right, List.zipWith_nil_right,
      List.cons.injEq, Prod.mk.injEq, true_and, and_true]
    ext i j
    fin_cases i <;> fin_cases j <;> simp [hamiltonian, par]
  rw [h, ← exp_rot]
  simp only [evolve, List.foldl_cons, List.foldl_nil, Matrix.mul_one]
  congr 1
  ext i j
  fin_cases i <;> fin_cases j <;> simp [X]

theorem evolve_idle (L : Lapack (Fin 2)) (cs : Option (List (Fin 2))) (δ : ℝ) :
    evolve ((waiting cs δ).toGate.hamiltonians (par L []).ctrl) = 1 := by
  have h : (waiting cs δ).toGate.hamiltonians (par L []).ctrl = [(1, 0)] := by
    simp only [waiting, Gate.hamiltonians, List.zipWith_cons_cons, List.zip_cons_cons, List.zip_nil_right, List.zipWith_nil_right,
      List.cons.injEq, Prod.mk.injEq, true_and, and_true]
    ext i j
    fin_cases i <;> fin_cases j <;> simp [hamiltonian, par]
  rw [h]
  simp [evolve]

theorem strength (cs : Option (List (Fin 2))) (δ : ℝ) (k : Nat) :
    noiseStrength (waiting cs δ).times (waiting cs δ).noise [X] k = |δ| := by
  simp [noiseStrength, waiting, X_norm]

/-- The state 0 is to be kept. -/
noncomputable def keep (δ : ℝ) : NoisyPreparation (Fin 2) none := (waiting none δ).prepares (Pi.single 0 1 : Fin 2 → ℂ)

theorem keep_goal (δ : ℝ) : embed none (keep δ).goal = ket 0 := by
  have : (keep δ).goal = (Pi.single 0 1 : Fin 2 → ℂ) := by
    funext i
    show ((1 : Matrix (Fin 2) (Fin 2) ℂ) *ᵥ (Pi.single 0 1 : Fin 2 → ℂ)) i = _
    rw [Matrix.one_mulVec]
  rw [this]
  ext i j
  show ∑ x : Fin 2, (if x = i then (Pi.single 0 1 : Fin 2 → ℂ) x else 0) = _
  fin_cases i <;> simp [ket]

theorem keep_ok {L : Lapack (Fin 2)} (h : L.EighOk) (δ : ℝ) : (keep δ).Ok (par L []) := by
  obtain ⟨⟨a, b, c, d, -⟩, e⟩ := waiting_ok h none δ
  refine ⟨⟨a, b, c, d, ?_⟩, e⟩
  have := embed_norm (none : Option (List (Fin 2))) (by simp) (keep δ).goal
  rw [keep_goal, ket_norm] at this
  exact this.symm

theorem away_rot (δ : ℝ) : away (ket 0) (rot δ * ket 0) = Real.sin δ ^ 2 := by
  have h : inner ℂ (vec (ket 0)) (vec (rot δ * ket 0)) = ((Real.cos δ : ℝ) : ℂ) := by
    rw [vec_inner, Matrix.trace_fin_one]
    rw [Matrix.mul_apply, Fin.sum_univ_two, Matrix.mul_apply, Matrix.mul_apply, Fin.sum_univ_two, Fin.sum_univ_two]
    simp [ket, rot]
  unfold away
  rw [h, Complex.norm_real, Real.norm_eq_abs, sq_abs]
  linarith [Real.sin_sq_add_cos_sq δ]

theorem infidelity_rot (cl : Closest) (mcu : Bool) (x : ℝ) :
    1 - entFid cl (none : Option (List (Fin 2))) (1 : Matrix (Fin 2) (Fin 2) ℂ) (rot x) mcu = Real.sin x ^ 2 := by
  have hdim : (dim (none : Option (List (Fin 2))) : ℝ) = 2 := by
    show ((Fintype.card (Fin 2) : Nat) : ℝ) = 2
    simp
  have htr : (((1 : Matrix (CompIdx (none : Option (List (Fin 2)))) (CompIdx (none : Option (List (Fin 2)))) ℂ))ᴴ *
      truncTo cl none mcu (rot x)).trace = ((2 * Real.cos x : ℝ) : ℂ) := by
    show (((1 : Matrix (Fin 2) (Fin 2) ℂ))ᴴ * rot x).trace = _
    rw [Matrix.conjTranspose_one, Matrix.one_mul, Matrix.trace, Fin.sum_univ_two]
    simp [rot]
    ring
  have h := Real.sin_sq_add_cos_sq x
  simp only [entFid, hdim]
  erw [htr]
  rw [Complex.norm_real, Real.norm_eq_abs, sq_abs]
  linarith

/-- Small angles. -/
theorem sin_near {q : ℝ} (hq : q < 1) : ∃ δ : ℝ, 0 < δ ∧ q * δ ^ 2 < Real.sin δ ^ 2 := by
  set m := min 1 (1 - q) with hm
  have hm0 : 0 < m := lt_min one_pos (by linarith)
  have hs : √m ^ 2 = m := Real.sq_sqrt hm0.le
  have h0 : 0 < √m := Real.sqrt_pos.mpr hm0
  have h1 : √m ≤ 1 := Real.sqrt_le_one.mpr (min_le_left _ _)
  have h2 : m ≤ 1 - q := min_le_right _ _
  have h3 := Real.sin_gt_sub_cube h0
  have h4 : 0 < √m - √m ^ 3 / 6 := by nlinarith
  refine ⟨√m, h0, lt_of_le_of_lt ?_ (pow_lt_pow_left₀ h3 h4.le two_ne_zero)⟩
  have e : (√m - √m ^ 3 / 6) ^ 2 = m * (1 - m / 6) ^ 2 := by
    calc (√m - √m ^ 3 / 6) ^ 2 = √m ^ 2 * (1 - √m ^ 2 / 6) ^ 2 := by ring
      _ = _ := by rw [hs]
  rw [e, hs, mul_comm q]
  refine mul_le_mul_of_nonneg_left ?_ hm0.le
  nlinarith

end Ex157

open Ex157 Ex115 Ex155 Ex156 in
/-- **C157** None of the bounds can be improved by a factor: waiting without an error, while noise acts on the qubit. -/
theorem c157_attained (L : Lapack (Fin 2)) (h : L.EighOk) (cl : Closest) (mcu b neglect : Bool) (K : Nat) (hK : 0 < K) (q : ℝ) (hq : q < 1) :
    ∃ δ c : ℝ, 0 < δ ∧ (∀ k, noiseStrength [1] [fun _ _ => δ] [X] k = δ) ∧ q * δ ^ 2 < c ∧ c ≤ δ ^ 2 ∧
      (waiting none δ).toGate.infidelity cl mcu (par L []) = .ok 0 ∧
      (waiting none δ).infidelity cl mcu false (par L []) [X] (.int 1) K = .ok c ∧
      (waiting (some [0]) δ).toGate.leakage (par L []) = .ok 0 ∧
      (waiting (some [0]) δ).leakage (par L []) [X] (.int 1) K = .ok c ∧
      (keep δ).toPreparation.infidelity (par L []) b (ket 0) = .ok 0 ∧
      (keep δ).infidelity (par L []) [X] (.int 1) K b neglect (ket 0) = .ok c := by
  obtain ⟨δ, h0, h1⟩ := sin_near hq
  have hM := mc L K hK
  have hne : List.range K ≠ [] := by simpa using hK.ne'
  have r0 : rot 0 = 1 := by
    ext i j
    fin_cases i <;> fin_cases j <;> simp [rot]
  have hop : ∀ (cs : Option (List (Fin 2))) (k : Nat), ((waiting cs δ).trace [X] k).op (par L []) = rot δ := by
    intro cs k
    rw [((waiting_ok h cs δ).trace hM.noise k).op_evolve rfl, evolve_waiting]
  have hid : ∀ cs : Option (List (Fin 2)), (waiting cs δ).toGate.op (par L []) = rot 0 := by
    intro cs
    rw [(waiting_ok h cs δ).gate.op_evolve rfl, evolve_idle, r0]
  have s0 : Real.sin 0 ^ 2 = 0 := by simp
  refine ⟨δ, Real.sin δ ^ 2, h0, fun k => ?_, h1, ?_, ?_, ?_, ?_, ?_, ?_, ?_⟩
  · rw [show noiseStrength [1] [fun _ _ => δ] [X] k = _ from strength none δ k, abs_of_pos h0]
  · exact Real.sin_sq_le_sq
  · rw [((waiting_ok h none δ).gate.evolve rfl hM.ctrl cl mcu).2, evolve_idle, ← r0]
    exact congrArg Except.ok ((infidelity_rot cl mcu 0).trans s0)
  · rw [((waiting_ok h none δ).value hM cl mcu).1]
    simp only [hop]
    rw [mean_const _ hne]
    exact congrArg Except.ok (infidelity_rot cl mcu δ)
  · rw [((waiting_ok h (some [0]) δ).gate.leakage (by simp) (by simp) rfl hM.ctrl).1, hid, leak_rot, s0]
  · rw [(waiting_ok h (some [0]) δ).leakage hM]
    simp only [hop]
    rw [mean_const _ hne, leak_rot]
  · rw [(keep_ok h δ).pulse.value b (ket 0), keep_goal]
    have : evolve ((keep δ).toPreparation.hamiltonians (par L []).ctrl) = rot 0 := (evolve_idle L none δ).trans r0.symm
    rw [this, away_rot, s0]
  · have hf : ∀ k, (keep δ).final (par L []) [X] k = rot δ := evolve_waiting L none δ
    cases neglect
    · rw [(keep_ok h δ).value hM b (ket 0), keep_goal]
      simp only [hf]
      rw [mean_const _ hne, away_rot]
    · rw [(keep_ok h δ).value_neglect hM b (ket 0)]
      have : evolve ((keep δ).toPreparation.hamiltonians (par L []).ctrl) = 1 := evolve_idle L none δ
      simp only [hf, this, Matrix.one_mul]
      rw [mean_const _ hne, away_rot]

/-! ## Examples -/

namespace Ex157
open Ex115 Ex155 Ex156

/-- Two steps of a driven qubit with two kinds of noise which change in time and from trace to trace. -/
noncomputable def driven (cs : Option (List (Fin 2))) : NoisyGate (Fin 2) cs :=
  ⟨⟨[Z, 0], [1, 2], [[3, 4], [5, 6]], 1⟩, [fun j k => j + k / 10, fun j k => 1 / (j + k + 1)]⟩

theorem driven_ok {L : Lapack (Fin 2)} (h : L.EighOk) (cs : Option (List (Fin 2))) : (driven cs).Ok (par L []) :=
  ⟨⟨computes h _ (by simpa [driven] using Z_hermitian) _ (by simp [driven]) rfl, rfl, by simp [driven, par],
    by simpa [driven] using Z_hermitian, one_mem _⟩, rfl⟩

theorem mc2 (L : Lapack (Fin 2)) (K : Nat) (hK : 0 < K) : MonteCarlo (par L []) [X, Z] (.int 1) K :=
  ⟨rfl, Ex93.ctrl_hermitian L, by
    intro H hH
    simp only [List.mem_cons, List.not_mem_nil, or_false] at hH
    rcases hH with rfl | rfl
    · exact X_hermitian
    · exact Z_hermitian, Or.inl rfl, hK⟩

/-- The pulse as a preparation of the state 1. -/
noncomputable def flip (cs : Option (List (Fin 2))) (φ : CompIdx cs → ℂ) : NoisyPreparation (Fin 2) cs :=
  ⟨⟨[Z, 0], [1, 2], [[3, 4], [5, 6]], φ⟩, [fun j k => j + k / 10, fun j k => 1 / (j + k + 1)]⟩

theorem flip_ok {L : Lapack (Fin 2)} (h : L.EighOk) (cs : Option (List (Fin 2))) (φ : CompIdx cs → ℂ) (hφ : ∑ i, ‖φ i‖ ^ 2 = 1) :
    (flip cs φ).Ok (par L []) :=
  ⟨⟨computes h _ (by simpa [flip] using Z_hermitian) _ (by simp [flip]) rfl, rfl, by simp [flip, par],
    by simpa [flip] using Z_hermitian, hφ⟩, rfl⟩

example (cl : Closest) : ∃ (L : Lapack (Fin 2)) (S a a' l l' s s' e d d' : ℝ),
    (driven none).toGate.infidelity cl true (par L []) = .ok a ∧
    (driven none).infidelity cl true false (par L []) [X, Z] (.int 1) 7 = .ok a' ∧ |√a' - √a| ≤ S ∧
    (driven (some [1])).toGate.leakage (par L []) = .ok l ∧ (driven (some [1])).leakage (par L []) [X, Z] (.int 1) 7 = .ok l' ∧
    |√l' - √l| ≤ S ∧ (flip (some [1]) fun _ => 1).toPreparation.infidelity (par L []) true (ket 0) = .ok s ∧
    (flip (some [1]) fun _ => 1).infidelity (par L []) [X, Z] (.int 1) 7 true false (ket 0) = .ok s' ∧ |√s' - √s| ≤ S ∧
    (flip none (Pi.single 1 1 : Fin 2 → ℂ)).infidelity (par L []) [X, Z] (.int 1) 7 true true (ket 0) = .ok e ∧ e ≤ S ^ 2 ∧
    ((flip (some [1]) fun _ => 1).andThen (flip (some [1]) fun _ => 1)).infidelity (par L []) [X, Z] (.int 1) 7 true false (ket 0) = .ok d ∧
    √s' ≤ √d + √d' := by
  obtain ⟨L, hE, -, -, -⟩ := lapack_exists (Fin 2)
  have hM := mc2 L 7 (by norm_num)
  have hcs : ∀ l, some [(1 : Fin 2)] = some l → l.Nodup := by rintro _ ⟨⟩; simp
  have h1 : ∑ i : CompIdx (some [(1 : Fin 2)]), ‖(fun _ => 1 : CompIdx (some [(1 : Fin 2)]) → ℂ) i‖ ^ 2 = 1 :=
    show ∑ i : Fin 1, ‖(1 : ℂ)‖ ^ 2 = 1 by simp
  have h2 : ∑ i : CompIdx (none : Option (List (Fin 2))), ‖(Pi.single 1 1 : Fin 2 → ℂ) i‖ ^ 2 = 1 :=
    show ∑ i : Fin 2, ‖(Pi.single 1 1 : Fin 2 → ℂ) i‖ ^ 2 = 1 by simp [Fin.sum_univ_two]
  obtain ⟨a, a', a1, a2, -, -, a3⟩ := c157_gate _ _ _ _ hM cl none (by simp) (inferInstanceAs (Nonempty (Fin 2))) true (Or.inr rfl) _
    (driven_ok hE none)
  obtain ⟨l, l', b1, b2, -, -, b3⟩ := c157_leakage _ _ _ _ hM [(1 : Fin 2)] (by simp) (by simp) _ (driven_ok hE (some [1]))
  obtain ⟨s, s', d1, d2, -, -, d3⟩ := c157_state _ _ _ _ hM _ hcs true (ket 0) (ket_norm 0) _ (flip_ok hE (some [1]) (fun _ => 1) h1)
  obtain ⟨e, e1, -, e2⟩ := c157_neglect _ _ _ _ hM true (ket 0) (ket_norm 0) _ (flip_ok hE none (Pi.single 1 1 : Fin 2 → ℂ) h2)
  obtain ⟨c₁, c₂, c, f1, f2, f3, f4, f5⟩ := c157_sequence _ _ _ _ hM _ hcs true (ket 0) (ket_norm 0) _ _
    (flip_ok hE (some [1]) (fun _ => 1) h1) (flip_ok hE (some [1]) (fun _ => 1) h1)
  obtain ⟨-, -, -, -, -, -, -, -, -⟩ := c157_gate_on_state _ _ _ _ hM cl _ hcs false true (Or.inl rfl) (ket 0) (ket_norm 0) _
    (flip_ok hE (some [1]) (fun _ => 1) h1) _ (driven_ok hE (some [1]))
  rw [d2] at f1
  obtain rfl := Except.ok.inj f1
  refine ⟨L, _, a, a', l, l', s, s', e, c, c₂, a1, a2, a3, b1, b2, b3, d1, d2, d3, e1, ?_, f3, ?_⟩
  · rw [Real.sq_sqrt]
    · exact e2
    · unfold mean
      refine div_nonneg (List.sum_nonneg fun x hx => ?_) (by positivity)
      obtain ⟨k, -, rfl⟩ := List.mem_map.mp hx
      exact sq_nonneg _
  · rw [abs_le] at f4
    linarith

end Ex157

end

end Verif.Sim
