import Verif.Sim.Sequence
import Verif.Cost.Systematic
import Verif.Cost.Estimator

/-!
# C154: noise infidelities of sequences of gates

`OperationNoiseInfidelity` (cost_functions.py:1320-1422) with a Monte Carlo solver (`SchroedingerSMonteCarlo`,
solver_algorithms.py:1055-1330) for pulses played one after the other, compared with the values of the single pulses. The noise of the
sequence consists of the noise of the pulses, trace by trace.
-/

namespace Verif.Sim
open Verif Verif.Transfer Verif.Operator Verif.Solver Verif.Cost Matrix

variable {n : Type} [Fintype n] [DecidableEq n]

/-! ## Specification -/

/-- A gate and the noise it is exposed to: for every time step the samples, by noise operator and trace. -/
structure NoisyGate (n : Type) (cs : Option (List n)) extends Gate n cs where
  noise : List (Nat → Nat → ℝ)

namespace NoisyGate
variable {cs : Option (List n)}

/-- The samples as the noise trace generator returns them: operator, trace, time. -/
def samples (g : NoisyGate n cs) (ops traces : Nat) : Arr3 := ⟨ops, traces, g.noise.length, fun j k t => g.noise.getD t 0 j k⟩

/-- The Monte Carlo solver for the gate. -/
noncomputable def solver (g : NoisyGate n cs) (p : SPar n n) (hN : List (Matrix n n ℂ)) (procs : Procs) (K : Nat) : MC n n :=
  ⟨{ p with drift := g.drift }.bare.cfg, hN, procs, none, K, g.samples hN.length K⟩

/-- What `OperationNoiseInfidelity.costs()` returns for the gate. -/
noncomputable def infidelity (cl : Closest) (mcu neglect : Bool) (p : SPar n n) (hN : List (Matrix n n ℂ)) (procs : Procs) (K : Nat)
    (g : NoisyGate n cs) : Except PyErr ℝ :=
  mcCosts cl cs g.target mcu neglect (g.solver p hN procs K) g.times g.amps [] g.amps

/-- The gates played one after the other. -/
def sequence (gs : List (NoisyGate n cs)) : NoisyGate n cs :=
  ⟨Gate.sequence (gs.map toGate), gs.flatMap (·.noise)⟩

/-- The gate can be evaluated, and there is noise for all of its time steps. -/
structure Ok (p : SPar n n) (g : NoisyGate n cs) : Prop where
  gate : g.toGate.Ok p
  steps : g.noise.length = g.times.length

end NoisyGate

/-- The Monte Carlo solver: more than one process only if no derivatives are computed along with the propagators. -/
structure MonteCarlo (p : SPar n n) (hN : List (Matrix n n ℂ)) (procs : Procs) (K : Nat) : Prop where
  init : p.init = 1
  ctrl : ∀ H ∈ p.ctrl, H.IsHermitian
  noise : ∀ H ∈ hN, H.IsHermitian
  procs : procs = .int 1 ∨ ((procs = .none ∨ ∃ k : Int, 0 < k ∧ procs = .int k) ∧ p.calcDeriv = false)
  traces : 0 < K

/-! ## Lemmas -/

namespace NoisyGate
variable {cs : Option (List n)}

/-- What the gate does in one trace. -/
noncomputable def trace (g : NoisyGate n cs) (hN : List (Matrix n n ℂ)) (k : Nat) : Gate n cs :=
  { g.toGate with drift := List.zipWith (fun H w => H + ∑ j : Fin hN.length, ((w j k : ℝ) : ℂ) • hN[j]) g.drift g.noise }

omit [Fintype n] [DecidableEq n] in
theorem trace_noisy (g : NoisyGate n cs) (p : SPar n n) (h : g.drift.length = g.noise.length) (hN : List (Matrix n n ℂ)) (K k : Nat) :
    ({ p with drift := g.drift }.bare).noisy hN (g.samples hN.length K) k = { p with drift := (g.trace hN k).drift }.bare := by
  have : (g.drift.zipIdx.map fun q => q.1 + noiseHam hN (g.samples hN.length K) k q.2) = (g.trace hN k).drift := by
    refine List.ext_getElem (by simp [trace, h]) fun i h1 h2 => ?_
    have hi : i < g.noise.length := by simpa [h] using h1
    simp only [trace, List.getElem_map, List.getElem_zipIdx, List.getElem_zipWith, noiseHam, samples, Nat.zero_add,
      List.getD_eq_getElem _ _ hi]
  unfold SPar.noisy SPar.bare
  simp only [this]

theorem Ok.trace {p : SPar n n} {g : NoisyGate n cs} (h : g.Ok p) {hN : List (Matrix n n ℂ)} (hH : ∀ H ∈ hN, H.IsHermitian) (k : Nat) :
    (g.trace hN k).Ok p := by
  have hl : g.drift.length = g.noise.length := by rw [h.steps]; exact h.gate.computes.drift
  have hd : ∀ H ∈ (g.trace hN k).drift, H.IsHermitian := by
    intro H hm
    obtain ⟨i, hi, rfl⟩ := List.mem_iff_getElem.mp hm
    simp only [NoisyGate.trace, List.getElem_zipWith]
    refine (h.gate.hermitian _ (List.getElem_mem _)).add ?_
    unfold Matrix.IsHermitian
    rw [Matrix.conjTranspose_sum]
    refine Finset.sum_congr rfl fun j _ => ?_
    have e := (hH hN[(j : Nat)] (List.getElem_mem _)).eq
    rw [Matrix.conjTranspose_smul, Complex.star_def, Complex.conj_ofReal]
    exact congrArg _ e
  refine ⟨⟨h.gate.computes.ctrl, ?_, h.gate.computes.steps, h.gate.computes.stable, ?_⟩, h.gate.rows, h.gate.cols, hd, h.gate.unitary⟩
  · show (List.zipWith _ g.drift g.noise).length = g.times.length
    simp [hl, h.steps]
  · rcases h.gate.computes.method with m | m
    · exact Or.inl m
    · exact Or.inr ⟨m.1, m.2.1, m.2.2.1, hd, m.2.2.2.2⟩

end NoisyGate

/-- The operation of a gate. -/
noncomputable def Gate.op {cs : Option (List n)} (p : SPar n n) (g : Gate n cs) : Matrix n n ℂ :=
  match (readFwd { p with drift := g.drift }.bare.cfg (fresh { p with drift := g.drift }.bare.cfg g.times g.amps)).1 with
  | .ok f => f.getLastD 0
  | .error _ => 0

theorem Gate.Ok.op {cs : Option (List n)} {p : SPar n n} (hi : p.init = 1) (hc : ∀ H ∈ p.ctrl, H.IsHermitian) {g : Gate n cs}
    (h : g.Ok p) : g.op p ∈ Matrix.unitaryGroup n ℂ ∧
      ∃ f, (readFwd { p with drift := g.drift }.bare.cfg (fresh { p with drift := g.drift }.bare.cfg g.times g.amps)).1 = .ok f ∧
        f.getLast? = some (g.op p) := by
  obtain ⟨f, U, e1, e2, e3, -⟩ := h.value hi hc (fun _ => 0) false
  have e : g.op p = U := by
    unfold Gate.op
    rw [e1]
    exact (last_value e2).2
  rw [e]
  exact ⟨e3, f, e1, e2⟩

/-- The operation of two gates. -/
theorem Gate.op_append {cs : Option (List n)} {p : SPar n n} (hi : p.init = 1) {g₁ g₂ : Gate n cs} (h₁ : g₁.Ok p) (h₂ : g₂.Ok p)
    (T : Matrix (CompIdx cs) (CompIdx cs) ℂ) :
    Gate.op p (⟨g₁.drift ++ g₂.drift, g₁.times ++ g₂.times, g₁.amps ++ g₂.amps, T⟩ : Gate n cs) = g₂.op p * g₁.op p := by
  obtain ⟨f₁, f₂, f, V₁, V₂, e1, e2, e3, e4, e5, e6⟩ := c115_product p hi g₁.drift g₂.drift g₁.times g₂.times h₁.computes h₂.computes
    g₁.amps g₂.amps h₁.rows h₂.rows h₁.cols h₂.cols
  have k1 : g₁.op p = V₁ := by
    unfold Gate.op
    rw [e1]
    exact (last_value e4).2
  have k2 : g₂.op p = V₂ := by
    unfold Gate.op
    rw [e2]
    exact (last_value e5).2
  rw [k1, k2]
  unfold Gate.op
  simp only [e3]
  exact (last_value e6).2

namespace NoisyGate
variable {cs : Option (List n)}

/-- The propagators without noise and those of the traces. -/
theorem Ok.traces {p : SPar n n} {hN : List (Matrix n n ℂ)} {procs : Procs} {K : Nat} (hM : MonteCarlo p hN procs K) {g : NoisyGate n cs}
    (h : g.Ok p) : ∃ fc f, specFwd (g.solver p hN procs K).base g.times g.amps = .ok fc ∧
      fwdNoise (g.solver p hN procs K) g.times g.amps [] g.amps = .ok f ∧ fc.getLast? = some (g.toGate.op p) ∧ (∀ fk ∈ f, fk ≠ []) ∧
      f.map (fun f => f.getLastD 0) = (List.range K).map fun k => (g.trace hN k).op p := by
  have hl : g.drift.length = g.noise.length := by rw [h.steps]; exact h.gate.computes.drift
  have hne : g.amps ≠ [] := by
    intro h0
    have := h.gate.rows
    rw [h0] at this
    exact h.gate.computes.steps (List.length_eq_zero_iff.mp this.symm)
  obtain ⟨r, e1, e2, e3, e4⟩ := idAmp_ok g.amps p.ctrl.length hne h.gate.cols
  have ha := ampsOf_some { p with drift := g.drift }.bare.cfg g.times g.amps g.amps r rfl e1 e2 (by rw [e4]; exact h.gate.rows) e3
  rw [e4] at ha
  have hmeth : p.method ≠ .other := by rcases h.gate.computes.method with h | h <;> rw [h.1] <;> simp
  have hv : { p with drift := g.drift }.bare.Valid g.times := ⟨h.gate.computes.ctrl, h.gate.computes.drift, hmeth⟩
  obtain ⟨_, f, _, -, c2, -, -, c3, -, c4⟩ := c94_traces { p with drift := g.drift }.bare g.times hv g.amps g.amps
    g.amps [] ha h.gate.computes.steps (g.solver p hN procs K) rfl hM.procs rfl rfl rfl (by exact h.steps)
  obtain ⟨-, fc, d1, d2⟩ := h.gate.op hM.init hM.ctrl
  have hr := ready_fresh { p with drift := g.drift }.bare g.times g.amps g.amps ha
  have k1 := (readFwd_ok h.gate.computes.stable hr.inv).1
  rw [hr.times, d1] at k1
  have hf : f.map (fun f => f.getLastD 0) = (List.range K).map fun k => (g.trace hN k).op p := by
    refine List.ext_getElem (by simp [c3, solver]) fun k h1 h2 => ?_
    obtain ⟨_, fk, _, -, b1, -, -, b2, -⟩ := c4 k (by simpa [solver] using h2)
    obtain ⟨-, fk', b3, b4⟩ := (h.trace hM.noise k).op hM.init hM.ctrl
    have b2' : (readFwd { p with drift := (g.trace hN k).drift }.bare.cfg
        (fresh { p with drift := (g.trace hN k).drift }.bare.cfg g.times g.amps)).1 = .ok fk := by
      rw [← trace_noisy g p hl hN K k]
      exact b2
    rw [show (g.trace hN k).times = g.times from rfl, show (g.trace hN k).amps = g.amps from rfl, b2'] at b3
    cases Except.ok.inj b3
    rw [List.getElem_map, List.getElem_map, List.getElem_range, (List.getElem?_eq_some_iff.mp b1).2]
    exact (last_value b4).2
  have hfne : ∀ fk ∈ f, fk ≠ [] := by
    intro fk hfk
    obtain ⟨k, hk, rfl⟩ := List.mem_iff_getElem.mp hfk
    have hk' : k < K := by rw [c3] at hk; exact hk
    obtain ⟨_, fk, _, -, b1, -, -, b2, -⟩ := c4 k hk'
    obtain ⟨-, fk', b3, b4⟩ := (h.trace hM.noise k).op hM.init hM.ctrl
    have b2' : (readFwd { p with drift := (g.trace hN k).drift }.bare.cfg
        (fresh { p with drift := (g.trace hN k).drift }.bare.cfg g.times g.amps)).1 = .ok fk := by
      rw [← trace_noisy g p hl hN K k]
      exact b2
    rw [show (g.trace hN k).times = g.times from rfl, show (g.trace hN k).amps = g.amps from rfl, b2'] at b3
    cases Except.ok.inj b3
    rw [(List.getElem?_eq_some_iff.mp b1).2]
    exact (last_value b4).1
  exact ⟨fc, f, k1.symm, c2, d2, hfne, hf⟩

/-- The value of the noise infidelity. -/
theorem Ok.value {p : SPar n n} {hN : List (Matrix n n ℂ)} {procs : Procs} {K : Nat} (hM : MonteCarlo p hN procs K) {g : NoisyGate n cs}
    (h : g.Ok p) (cl : Closest) (mcu : Bool) :
    g.infidelity cl mcu false p hN procs K =
      .ok (mean ((List.range K).map fun k => 1 - entFid cl cs g.target ((g.trace hN k).op p) mcu)) ∧
    g.infidelity cl mcu true p hN procs K = infidelity cl mcu false p hN procs K { g with target := truncTo cl cs mcu (g.toGate.op p) } := by
  obtain ⟨fc, f, k1, c2, d2, hfne, hf⟩ := h.traces hM
  have hcosts : ∀ (T : Matrix (CompIdx cs) (CompIdx cs) ℂ) (nse : Bool),
      infidelity cl mcu nse p hN procs K { g with target := T } = noiseCosts cl cs T mcu nse fc f := by
    intro T nse
    unfold infidelity mcCosts
    rw [show specFwd (solver { g with target := T } p hN procs K).base g.times g.amps = .ok fc from k1,
      show fwdNoise (solver { g with target := T } p hN procs K) g.times g.amps [] g.amps = .ok f from c2]
    rfl
  refine ⟨?_, ?_⟩
  · rw [show g.infidelity cl mcu false p hN procs K = _ from hcosts g.target false, noiseCosts_value cl cs _ mcu fc f hfne]
    congr 2
    have := congrArg (List.map fun U => 1 - entFid cl cs g.target U mcu) hf
    rw [List.map_map, List.map_map] at this
    exact this
  · rw [show g.infidelity cl mcu true p hN procs K = _ from hcosts g.target true, hcosts]
    unfold noiseCosts effTarget
    simp only [if_true, bind, Except.bind]
    rw [last_ok d2]
    rfl

theorem sequence_append (gs : List (NoisyGate n cs)) (g : NoisyGate n cs) :
    sequence (gs ++ [g]) = ⟨⟨(sequence gs).drift ++ g.drift, (sequence gs).times ++ g.times,
      (sequence gs).amps ++ g.amps, g.target * (sequence gs).target⟩, (sequence gs).noise ++ g.noise⟩ := by
  simp [sequence, Gate.sequence]

theorem sequence_ok {p : SPar n n} (gs : List (NoisyGate n cs)) (hne : gs ≠ []) (h : ∀ g ∈ gs, g.Ok p) : (sequence gs).Ok p := by
  refine ⟨Sim.sequence_ok _ (by simpa using hne) fun g hg => ?_, ?_⟩
  · obtain ⟨g', hg', rfl⟩ := List.mem_map.mp hg
    exact (h g' hg').gate
  · clear hne
    induction gs with
    | nil => rfl
    | cons g gs ih =>
      have h1 := ih fun g' hg' => h g' (by simp [hg'])
      have h2 := (h g (by simp)).steps
      simp only [sequence, Gate.sequence, List.flatMap_cons, List.map_cons, List.length_append] at h1 ⊢
      rw [h1, h2]

omit [Fintype n] [DecidableEq n] in
theorem trace_append (g₁ g₂ : NoisyGate n cs) (h : g₁.drift.length = g₁.noise.length) (T : Matrix (CompIdx cs) (CompIdx cs) ℂ)
    (hN : List (Matrix n n ℂ)) (k : Nat) :
    trace (⟨⟨g₁.drift ++ g₂.drift, g₁.times ++ g₂.times, g₁.amps ++ g₂.amps, T⟩, g₁.noise ++ g₂.noise⟩ : NoisyGate n cs) hN k =
      ⟨(g₁.trace hN k).drift ++ (g₂.trace hN k).drift, g₁.times ++ g₂.times, g₁.amps ++ g₂.amps, T⟩ := by
  simp [trace, List.zipWith_append h]

/-- Two gates with noise, one after the other. -/
theorem two_noisy {p : SPar n n} {hN : List (Matrix n n ℂ)} {procs : Procs} {K : Nat} (hM : MonteCarlo p hN procs K) (cl : Closest)
    (hcs : ∀ l, cs = some l → l.Nodup) (hne : Nonempty (CompIdx cs)) {mcu : Bool} (hm : mcu = false ∨ cs = none) {g₁ g₂ : NoisyGate n cs}
    (h₁ : g₁.Ok p) (h₂ : g₂.Ok p) :
    ∃ c₁ c₂ c : ℝ, g₁.infidelity cl mcu false p hN procs K = .ok c₁ ∧ g₂.infidelity cl mcu false p hN procs K = .ok c₂ ∧
      infidelity cl mcu false p hN procs K (⟨⟨g₁.drift ++ g₂.drift, g₁.times ++ g₂.times, g₁.amps ++ g₂.amps, g₂.target * g₁.target⟩,
        g₁.noise ++ g₂.noise⟩ : NoisyGate n cs) = .ok c ∧
      √c ≤ √c₁ + √c₂ ∧ √c₁ ≤ √c + √c₂ ∧ √c₂ ≤ √c + √c₁ := by
  have hs : (⟨⟨g₁.drift ++ g₂.drift, g₁.times ++ g₂.times, g₁.amps ++ g₂.amps, g₂.target * g₁.target⟩, g₁.noise ++ g₂.noise⟩ :
      NoisyGate n cs).Ok p := by
    have := sequence_ok [g₁, g₂] (by simp) (by simp [h₁, h₂] : ∀ g ∈ [g₁, g₂], g.Ok p)
    simpa [sequence, Gate.sequence] using this
  have hl : g₁.drift.length = g₁.noise.length := by rw [h₁.steps]; exact h₁.gate.computes.drift
  have hop : ∀ k, Gate.op p (trace (⟨⟨g₁.drift ++ g₂.drift, g₁.times ++ g₂.times, g₁.amps ++ g₂.amps, g₂.target * g₁.target⟩,
      g₁.noise ++ g₂.noise⟩ : NoisyGate n cs) hN k) = (g₂.trace hN k).op p * (g₁.trace hN k).op p := by
    intro k
    rw [trace_append g₁ g₂ hl]
    exact Gate.op_append hM.init (h₁.trace hM.noise k) (h₂.trace hM.noise k) _
  refine ⟨_, _, _, (h₁.value hM cl mcu).1, (h₂.value hM cl mcu).1, (hs.value hM cl mcu).1, ?_⟩
  have key : ∀ k, _ := fun k => infidelity_mul cl hcs hne hm h₁.gate.unitary h₂.gate.unitary ((h₁.trace hM.noise k).op hM.init hM.ctrl).1
    ((h₂.trace hM.noise k).op hM.init hM.ctrl).1
  have n1 : ∀ k, 0 ≤ 1 - entFid cl cs g₁.target ((g₁.trace hN k).op p) mcu := fun k => (key k).2.2.2
  have n2 : ∀ k, 0 ≤ 1 - entFid cl cs g₂.target ((g₂.trace hN k).op p) mcu := fun k =>
    (infidelity_mul cl hcs hne hm h₂.gate.unitary h₂.gate.unitary ((h₂.trace hM.noise k).op hM.init hM.ctrl).1
      ((h₂.trace hM.noise k).op hM.init hM.ctrl).1).2.2.2
  have n3 : ∀ k, 0 ≤ 1 - entFid cl cs (g₂.target * g₁.target) ((g₂.trace hN k).op p * (g₁.trace hN k).op p) mcu := fun k =>
    (infidelity_mul cl hcs hne hm (mul_mem h₂.gate.unitary h₁.gate.unitary) h₂.gate.unitary
      (mul_mem ((h₂.trace hM.noise k).op hM.init hM.ctrl).1 ((h₁.trace hM.noise k).op hM.init hM.ctrl).1)
      ((h₂.trace hM.noise k).op hM.init hM.ctrl).1).2.2.2
  simp only [hop]
  exact ⟨sqrt_mean_le _ _ _ _ (fun k _ => n3 k) (fun k _ => n1 k) (fun k _ => n2 k) fun k _ => (key k).1,
    sqrt_mean_le _ _ _ _ (fun k _ => n1 k) (fun k _ => n3 k) (fun k _ => n2 k) fun k _ => (key k).2.1,
    sqrt_mean_le _ _ _ _ (fun k _ => n2 k) (fun k _ => n3 k) (fun k _ => n1 k) fun k _ => (key k).2.2.1⟩

theorem noisy_nonneg {p : SPar n n} {hN : List (Matrix n n ℂ)} {procs : Procs} {K : Nat} (hM : MonteCarlo p hN procs K) (cl : Closest)
    (hcs : ∀ l, cs = some l → l.Nodup) (hne : Nonempty (CompIdx cs)) {mcu : Bool} (hm : mcu = false ∨ cs = none) {g : NoisyGate n cs}
    (h : g.Ok p) : ∃ c, g.infidelity cl mcu false p hN procs K = .ok c ∧ 0 ≤ c := by
  refine ⟨_, (h.value hM cl mcu).1, ?_⟩
  unfold mean
  refine div_nonneg (List.sum_nonneg fun x hx => ?_) (by positivity)
  obtain ⟨k, -, rfl⟩ := List.mem_map.mp hx
  exact (infidelity_mul cl hcs hne hm h.gate.unitary h.gate.unitary ((h.trace hM.noise k).op hM.init hM.ctrl).1
    ((h.trace hM.noise k).op hM.init hM.ctrl).1).2.2.2

end NoisyGate

/-! ## The property -/

/-- **C154** The square roots of the noise infidelities add up at most, whatever the noise in the gates has to do with each other. -/
theorem c154_sequence (p : SPar n n) (hN : List (Matrix n n ℂ)) (procs : Procs) (K : Nat) (hM : MonteCarlo p hN procs K) (cl : Closest)
    (cs : Option (List n)) (hcs : ∀ l, cs = some l → l.Nodup) (hne : Nonempty (CompIdx cs)) (mcu : Bool) (hm : mcu = false ∨ cs = none)
    (gs : List (NoisyGate n cs)) (h0 : gs ≠ []) (h : ∀ g ∈ gs, g.Ok p) :
    ∃ (c : ℝ) (cg : List ℝ), (NoisyGate.sequence gs).infidelity cl mcu false p hN procs K = .ok c ∧
      gs.map (NoisyGate.infidelity cl mcu false p hN procs K) = cg.map .ok ∧ 0 ≤ c ∧ (∀ x ∈ cg, 0 ≤ x) ∧ √c ≤ (cg.map Real.sqrt).sum := by
  induction gs using List.reverseRecOn with
  | nil => exact absurd rfl h0
  | append_singleton gs g ih =>
    have hg := h g (by simp)
    obtain ⟨cg, hcg, hcg0⟩ := NoisyGate.noisy_nonneg hM cl hcs hne hm hg
    by_cases h0 : gs = []
    · subst h0
      have : NoisyGate.sequence ([] ++ [g]) = g := by simp [NoisyGate.sequence, Gate.sequence]
      rw [this]
      exact ⟨cg, [cg], hcg, by simp [hcg], hcg0, by simpa using hcg0, by simp⟩
    · have hall : ∀ k ∈ gs, k.Ok p := fun k hk => h k (by simp [hk])
      obtain ⟨c, cs', e1, e2, e3, e4, e5⟩ := ih h0 hall
      obtain ⟨c₁, c₂, c', f1, f2, f3, f4, -, -⟩ := NoisyGate.two_noisy hM cl hcs hne hm (NoisyGate.sequence_ok gs h0 hall) hg
      rw [e1] at f1
      rw [hcg] at f2
      obtain rfl := Except.ok.inj f1
      obtain rfl := Except.ok.inj f2
      obtain ⟨c'', g1, g2⟩ := NoisyGate.noisy_nonneg hM cl hcs hne hm (NoisyGate.sequence_ok (gs ++ [g]) (by simp) h)
      refine ⟨c'', cs' ++ [cg], g1, by simp [e2, hcg], g2, ?_, ?_⟩
      · intro x hx
        rcases List.mem_append.mp hx with hx | hx
        · exact e4 x hx
        · rw [List.mem_singleton.mp hx]; exact hcg0
      · rw [NoisyGate.sequence_append, f3] at g1
        rw [← Except.ok.inj g1]
        simp only [List.map_append, List.sum_append, List.map_cons, List.map_nil, List.sum_cons, List.sum_nil, add_zero]
        linarith

/-- **C154** A gate which meets the same noise in each of `r` repetitions has at most `r²` times the noise infidelity. -/
theorem c154_repeated (p : SPar n n) (hN : List (Matrix n n ℂ)) (procs : Procs) (K : Nat) (hM : MonteCarlo p hN procs K) (cl : Closest)
    (cs : Option (List n)) (hcs : ∀ l, cs = some l → l.Nodup) (hne : Nonempty (CompIdx cs)) (mcu : Bool) (hm : mcu = false ∨ cs = none)
    (g : NoisyGate n cs) (h : g.Ok p) (r : Nat) (hr : 0 < r) :
    (NoisyGate.sequence (List.replicate r g)).target = g.target ^ r ∧
    ∃ c c₁ : ℝ, (NoisyGate.sequence (List.replicate r g)).infidelity cl mcu false p hN procs K = .ok c ∧
      g.infidelity cl mcu false p hN procs K = .ok c₁ ∧ 0 ≤ c₁ ∧ c ≤ r ^ 2 * c₁ := by
  refine ⟨?_, ?_⟩
  · clear h hr
    induction r with
    | zero => simp [NoisyGate.sequence, Gate.sequence]
    | succ r ih =>
      rw [List.replicate_succ', NoisyGate.sequence_append]
      simp only
      rw [ih, pow_succ']
  · obtain ⟨c₁, e1, e2⟩ := NoisyGate.noisy_nonneg hM cl hcs hne hm h
    obtain ⟨c, cg, f1, f2, f3, f4, f5⟩ := c154_sequence p hN procs K hM cl cs hcs hne mcu hm (List.replicate r g) (by simpa using hr.ne')
      (fun g' hg' => by rw [List.eq_of_mem_replicate hg']; exact h)
    have hcg : cg = List.replicate r c₁ := by
      rw [List.map_replicate, e1] at f2
      have : (List.replicate r c₁).map (Except.ok : ℝ → Except PyErr ℝ) = cg.map .ok := by rw [List.map_replicate]; exact f2
      exact (List.map_injective_iff.mpr (fun a b hab => Except.ok.inj hab) this).symm
    rw [hcg, List.map_replicate, List.sum_replicate, nsmul_eq_mul] at f5
    refine ⟨c, c₁, f1, e1, e2, ?_⟩
    have := pow_le_pow_left₀ (Real.sqrt_nonneg c) f5 2
    rw [Real.sq_sqrt f3, mul_pow, Real.sq_sqrt e2] at this
    exact this

/-- **C154** A gate which suffers from noise is not hidden by a gate before or after it which suffers less. -/
theorem c154_not_hidden (p : SPar n n) (hN : List (Matrix n n ℂ)) (procs : Procs) (K : Nat) (hM : MonteCarlo p hN procs K) (cl : Closest)
    (cs : Option (List n)) (hcs : ∀ l, cs = some l → l.Nodup) (hne : Nonempty (CompIdx cs)) (mcu : Bool) (hm : mcu = false ∨ cs = none)
    (g₁ g₂ : NoisyGate n cs) (h₁ : g₁.Ok p) (h₂ : g₂.Ok p) :
    ∃ c₁ c₂ c : ℝ, g₁.infidelity cl mcu false p hN procs K = .ok c₁ ∧ g₂.infidelity cl mcu false p hN procs K = .ok c₂ ∧
      (NoisyGate.sequence [g₁, g₂]).infidelity cl mcu false p hN procs K = .ok c ∧ |√c₁ - √c₂| ≤ √c := by
  obtain ⟨c₁, c₂, c, e1, e2, e3, -, e5, e6⟩ := NoisyGate.two_noisy hM cl hcs hne hm h₁ h₂
  refine ⟨c₁, c₂, c, e1, e2, ?_, by rw [abs_le]; constructor <;> linarith⟩
  have : NoisyGate.sequence [g₁, g₂] = ⟨⟨g₁.drift ++ g₂.drift, g₁.times ++ g₂.times, g₁.amps ++ g₂.amps, g₂.target * g₁.target⟩,
      g₁.noise ++ g₂.noise⟩ := by
    simp [NoisyGate.sequence, Gate.sequence]
  rw [this]
  exact e3

namespace NoisyGate

/-- The gate with the operation as target which it performs without noise. -/
noncomputable def meant (p : SPar n n) (g : NoisyGate n none) : NoisyGate n none := { g with target := (g.toGate.op p : Matrix n n ℂ) }

theorem Ok.meant {p : SPar n n} (hi : p.init = 1) (hc : ∀ H ∈ p.ctrl, H.IsHermitian) {g : NoisyGate n none} (h : g.Ok p) :
    (g.meant p).Ok p :=
  ⟨⟨h.gate.computes, h.gate.rows, h.gate.cols, h.gate.hermitian, (h.gate.op hi hc).1⟩, h.steps⟩

theorem Ok.neglect {p : SPar n n} {hN : List (Matrix n n ℂ)} {procs : Procs} {K : Nat} (hM : MonteCarlo p hN procs K)
    {g : NoisyGate n none} (h : g.Ok p) (cl : Closest) (mcu : Bool) :
    g.infidelity cl mcu true p hN procs K = (g.meant p).infidelity cl mcu false p hN procs K :=
  (h.value hM cl mcu).2

theorem meant_sequence {p : SPar n n} (hi : p.init = 1) (gs : List (NoisyGate n none)) (hne : gs ≠ []) (h : ∀ g ∈ gs, g.Ok p) :
    (sequence gs).meant p = sequence (gs.map (meant p)) := by
  induction gs using List.reverseRecOn with
  | nil => exact absurd rfl hne
  | append_singleton gs g ih =>
    by_cases h0 : gs = []
    · subst h0
      have e1 : sequence ([] ++ [g]) = g := by simp [sequence, Gate.sequence]
      have e2 : sequence (([] ++ [g]).map (meant p)) = g.meant p := by
        have : sequence [g.meant p] = g.meant p := by
          have h1 : (g.meant p).target * 1 = (g.meant p).target := Matrix.mul_one _
          simp only [sequence, Gate.sequence, List.map_cons, List.map_nil, List.flatMap_cons, List.flatMap_nil, List.append_nil,
            List.foldl_cons, List.foldl_nil, h1]
        exact this
      rw [e1, e2]
    · have hall : ∀ k ∈ gs, k.Ok p := fun k hk => h k (by simp [hk])
      have := ih h0 hall
      rw [List.map_append, List.map_singleton, sequence_append, sequence_append, ← this]
      have e := Gate.op_append hi (sequence_ok gs h0 hall).gate (h g (by simp)).gate (g.target * (sequence gs).target)
      unfold meant
      rw [e]
      rfl

end NoisyGate

/-- **C154** The same for the noise alone: with `neglect_systematic_errors`, on the whole space, the targets of the gates do not matter. -/
theorem c154_neglect (p : SPar n n) (hN : List (Matrix n n ℂ)) (procs : Procs) (K : Nat) (hM : MonteCarlo p hN procs K) (cl : Closest)
    (hn : Nonempty n) (mcu : Bool) (gs : List (NoisyGate n none)) (h0 : gs ≠ []) (h : ∀ g ∈ gs, g.Ok p) :
    ∃ (c : ℝ) (cg : List ℝ), (NoisyGate.sequence gs).infidelity cl mcu true p hN procs K = .ok c ∧
      gs.map (NoisyGate.infidelity cl mcu true p hN procs K) = cg.map .ok ∧ 0 ≤ c ∧ (∀ x ∈ cg, 0 ≤ x) ∧ √c ≤ (cg.map Real.sqrt).sum := by
  obtain ⟨c, cg, e1, e2, e3⟩ := c154_sequence p hN procs K hM cl none (by simp) hn mcu (Or.inr rfl) (gs.map (NoisyGate.meant p))
    (by simpa using h0) (fun g hg => by
      obtain ⟨g', hg', rfl⟩ := List.mem_map.mp hg
      exact (h g' hg').meant hM.init hM.ctrl)
  refine ⟨c, cg, ?_, ?_, e3⟩
  · rw [(NoisyGate.sequence_ok gs h0 h).neglect hM, NoisyGate.meant_sequence hM.init gs h0 h]
    exact e1
  · rw [← e2, List.map_map]
    exact List.map_congr_left fun g hg => (h g hg).neglect hM cl mcu

/-! ## The bound is attained, and noise may cancel -/

namespace Ex154
open Ex115

/-- A step of duration one without controls, the noise turns the qubit about `Z`: by `δ k` in trace `k`. -/
noncomputable def idle (δ : Nat → ℝ) : NoisyGate (Fin 2) none := ⟨⟨[0], [1], [[0, 0]], (1 : Matrix (Fin 2) (Fin 2) ℂ)⟩, [fun _ k => δ k]⟩

theorem idle_ok {L : Lapack (Fin 2)} (h : L.EighOk) (δ : Nat → ℝ) : (idle δ).Ok (par L []) :=
  ⟨⟨computes h _ (by simp [idle]) _ (by simp [idle]) rfl, rfl, by simp [idle, par], by simp [idle], one_mem _⟩, rfl⟩

theorem solver_ok (L : Lapack (Fin 2)) (K : Nat) (hK : 0 < K) : MonteCarlo (par L []) [Z] (.int 1) K :=
  ⟨rfl, Ex93.ctrl_hermitian L, by simpa using Z_hermitian, Or.inl rfl, hK⟩

/-- The rotation by `x`. -/
noncomputable def turn (x : ℝ) : Matrix (Fin 2) (Fin 2) ℂ := Matrix.diagonal ![Complex.exp (-(Complex.I * x)), Complex.exp (Complex.I * x)]

theorem turn_mul (x y : ℝ) : turn x * turn y = turn (x + y) := by
  unfold turn
  rw [Matrix.diagonal_mul_diagonal]
  congr 1
  funext i
  fin_cases i
  · simp [← Complex.exp_add]; ring_nf
  · simp [← Complex.exp_add]; ring_nf

theorem op_idle {L : Lapack (Fin 2)} (h : L.EighOk) (δ : Nat → ℝ) (k : Nat) : ((idle δ).trace [Z] k).op (par L []) = turn (δ k) := by
  have ho := (idle_ok h δ).trace (hN := [Z]) (by simpa using Z_hermitian) k
  let D : Matrix (Fin 2) (Fin 2) ℂ := 0 + ∑ j : Fin [Z].length, ((δ k : ℝ) : ℂ) • [Z][j]
  have hcomp : Computes { par L [] with drift := [D] } [1] := ho.computes
  have hD : D = ((δ k : ℝ) : ℂ) • Z := by simp [D]
  obtain ⟨f, e1, e2⟩ := hcomp.fwd [[0, 0]] rfl (by simp [par])
  rw [hcomp.steps_eq _ rfl] at e2
  obtain ⟨F, e3, e4⟩ := e2.2.2 0 (by simp)
  rw [e2.2.1] at e3
  obtain rfl := Option.some.inj e3
  have hl : f.length = 2 := e2.1
  have hlast : f.getLast? = some (turn (δ k)) := by
    rw [List.getLast?_eq_getElem?, hl, e4]
    congr 1
    show NormedSpace.exp (((1 : ℝ) : ℂ) • ((-Complex.I) • hamiltonian D (par L []).ctrl [0, 0])) * 1 = _
    have hg : ((1 : ℝ) : ℂ) • ((-Complex.I) • hamiltonian D (par L []).ctrl [0, 0]) =
        (Matrix.diagonal ![-(Complex.I * δ k), Complex.I * δ k] : Matrix (Fin 2) (Fin 2) ℂ) := by
      rw [hD]
      ext i j
      fin_cases i <;> fin_cases j <;> simp [hamiltonian, par, Z]
    rw [hg, Matrix.exp_diagonal, Matrix.mul_one, turn]
    congr 1
    funext i
    fin_cases i <;> simp [Pi.coe_exp, Complex.exp_eq_exp_ℂ]
  have hr : (readFwd { par L [] with drift := ((idle δ).trace [Z] k).drift }.bare.cfg
      (fresh { par L [] with drift := ((idle δ).trace [Z] k).drift }.bare.cfg [1] [[0, 0]])).1 = .ok f := e1
  unfold Gate.op
  rw [show ((idle δ).trace [Z] k).times = [1] from rfl, show ((idle δ).trace [Z] k).amps = [[0, 0]] from rfl, hr]
  exact (last_value hlast).2

theorem op_sequence {L : Lapack (Fin 2)} (h : L.EighOk) (δs : List (Nat → ℝ)) (hne : δs ≠ []) (k : Nat) :
    ((NoisyGate.sequence (δs.map idle)).trace [Z] k).op (par L []) = turn (δs.map (· k)).sum ∧
      (NoisyGate.sequence (δs.map idle)).target = (1 : Matrix (Fin 2) (Fin 2) ℂ) := by
  induction δs using List.reverseRecOn with
  | nil => exact absurd rfl hne
  | append_singleton δs δ ih =>
    by_cases h0 : δs = []
    · subst h0
      have : NoisyGate.sequence (([] ++ [δ]).map idle) = idle δ := by simp [NoisyGate.sequence, Gate.sequence]
      rw [this, op_idle h]
      exact ⟨by simp, rfl⟩
    · obtain ⟨i1, i2⟩ := ih h0
      have hs := NoisyGate.sequence_ok (p := par L []) (δs.map idle) (by simpa using h0) (fun g hg => by
        obtain ⟨d, -, rfl⟩ := List.mem_map.mp hg
        exact idle_ok h d)
      have hH : ∀ H ∈ [Z], H.IsHermitian := by simpa using Z_hermitian
      rw [List.map_append, List.map_singleton, NoisyGate.sequence_append,
        NoisyGate.trace_append _ _ (by rw [hs.steps]; exact hs.gate.computes.drift)]
      refine ⟨?_, ?_⟩
      · refine (Gate.op_append rfl (hs.trace hH k) ((idle_ok h δ).trace hH k) _).trans ?_
        rw [i1, op_idle h, turn_mul]
        simp [add_comm]
      · exact (congrArg (fun X : Matrix (Fin 2) (Fin 2) ℂ => (1 : Matrix (Fin 2) (Fin 2) ℂ) * X) i2).trans (Matrix.one_mul _)

theorem infidelity_turn (cl : Closest) (mcu : Bool) (x : ℝ) :
    1 - entFid cl (none : Option (List (Fin 2))) (1 : Matrix (Fin 2) (Fin 2) ℂ) (turn x) mcu = Real.sin x ^ 2 := by
  have hdim : (dim (none : Option (List (Fin 2))) : ℝ) = 2 := by
    show ((Fintype.card (Fin 2) : Nat) : ℝ) = 2
    simp
  have htr : (((1 : Matrix (CompIdx (none : Option (List (Fin 2)))) (CompIdx (none : Option (List (Fin 2)))) ℂ))ᴴ *
      truncTo cl none mcu (turn x)).trace = ((2 * Real.cos x : ℝ) : ℂ) := by
    show (((1 : Matrix (Fin 2) (Fin 2) ℂ))ᴴ * turn x).trace = _
    rw [turn, Matrix.conjTranspose_one, Matrix.one_mul, Matrix.trace_diagonal, Fin.sum_univ_two]
    simp only [Matrix.cons_val_zero, Matrix.cons_val_one]
    rw [Complex.ofReal_mul, Complex.ofReal_cos, Complex.cos]
    push_cast
    ring_nf
  have h := Real.sin_sq_add_cos_sq x
  simp only [entFid, hdim]
  erw [htr]
  rw [Complex.norm_real, Real.norm_eq_abs, sq_abs]
  linarith

end Ex154

open Ex154 Ex115 in
/-- **C154** An idle qubit whose frequency fluctuates: the angles add up trace by trace. -/
theorem c154_idle (cl : Closest) (mcu : Bool) (L : Lapack (Fin 2)) (h : L.EighOk) (K : Nat) (hK : 0 < K) (δs : List (Nat → ℝ)) (hne : δs ≠ []) :
    (NoisyGate.sequence (δs.map idle)).infidelity cl mcu false (par L []) [Z] (.int 1) K =
      .ok (mean ((List.range K).map fun k => Real.sin (δs.map (· k)).sum ^ 2)) := by
  have hs := NoisyGate.sequence_ok (p := par L []) (δs.map idle) (by simpa using hne) (fun g hg => by
    obtain ⟨d, -, rfl⟩ := List.mem_map.mp hg
    exact idle_ok h d)
  rw [(hs.value (solver_ok L K hK) cl mcu).1]
  congr 3
  funext k
  obtain ⟨e1, e2⟩ := op_sequence h δs hne k
  rw [e1, e2]
  exact infidelity_turn cl mcu _

/-- Small angles: the sine of `r` times an angle comes as close to `r` times the sine as wanted. -/
theorem sin_repeated (r : Nat) (hr : 0 < r) (q : ℝ) (hq : q < r ^ 2) : ∃ δ : ℝ, 0 < Real.sin δ ∧ q * Real.sin δ ^ 2 < Real.sin (r * δ) ^ 2 := by
  have hr' : (0 : ℝ) < r := by positivity
  have ht : Filter.Tendsto (fun δ : ℝ => (r : ℝ) ^ 2 * (1 - (r * δ) ^ 2 / 6) ^ 2) (nhdsWithin 0 (Set.Ioi 0)) (nhds ((r : ℝ) ^ 2)) := by
    have : Continuous fun δ : ℝ => (r : ℝ) ^ 2 * (1 - (r * δ) ^ 2 / 6) ^ 2 := by fun_prop
    have h0 := this.tendsto 0
    simp only [mul_zero] at h0
    norm_num at h0
    exact h0.mono_left nhdsWithin_le_nhds
  have hsmall : ∀ᶠ δ : ℝ in nhdsWithin 0 (Set.Ioi 0), δ < 1 / r :=
    nhdsWithin_le_nhds (Iio_mem_nhds (by positivity))
  obtain ⟨δ, ⟨h1, h2⟩, h3⟩ := ((ht.eventually (lt_mem_nhds hq)).and hsmall |>.and self_mem_nhdsWithin).exists
  have hδ : 0 < δ := h3
  have hrδ : r * δ ≤ 1 := by
    have := (lt_div_iff₀ hr').mp h2
    linarith
  have hδ1 : δ ≤ 1 := by
    have : (1 : ℝ) ≤ r := by exact_mod_cast hr
    nlinarith
  have hs : 0 < Real.sin δ := Real.sin_pos_of_pos_of_lt_pi hδ (by linarith [Real.two_le_pi])
  refine ⟨δ, hs, ?_⟩
  have hlt := Real.sin_lt hδ
  have hgt := Real.sin_gt_sub_cube (x := r * δ) (by positivity)
  have hpos : 0 ≤ r * δ - (r * δ) ^ 3 / 6 := by
    have : 0 < r * δ := by positivity
    nlinarith [mul_le_mul hrδ hrδ this.le zero_le_one, pow_pos this 3]
  have h5 : (r * δ - (r * δ) ^ 3 / 6) ^ 2 ≤ Real.sin (r * δ) ^ 2 := pow_le_pow_left₀ hpos hgt.le 2
  have h6 : (r * δ - (r * δ) ^ 3 / 6) ^ 2 = (r : ℝ) ^ 2 * (1 - (r * δ) ^ 2 / 6) ^ 2 * δ ^ 2 := by ring
  have h7 : Real.sin δ ^ 2 ≤ δ ^ 2 := pow_le_pow_left₀ hs.le hlt.le 2
  have h8 : q * Real.sin δ ^ 2 < (r : ℝ) ^ 2 * (1 - (r * δ) ^ 2 / 6) ^ 2 * Real.sin δ ^ 2 := mul_lt_mul_of_pos_right h1 (by positivity)
  have h9 : (r : ℝ) ^ 2 * (1 - (r * δ) ^ 2 / 6) ^ 2 * Real.sin δ ^ 2 ≤ (r : ℝ) ^ 2 * (1 - (r * δ) ^ 2 / 6) ^ 2 * δ ^ 2 :=
    mul_le_mul_of_nonneg_left h7 (by positivity)
  linarith

theorem sequence_single {cs : Option (List n)} (g : NoisyGate n cs) : NoisyGate.sequence [g] = g := by
  simp [NoisyGate.sequence, Gate.sequence]

open Ex154 Ex115 in
/-- **C154** The factor `r²` for slow noise cannot be improved. -/
theorem c154_attained (cl : Closest) (mcu : Bool) (L : Lapack (Fin 2)) (h : L.EighOk) (K : Nat) (hK : 0 < K) (r : Nat) (hr : 0 < r) (q : ℝ)
    (hq : q < r ^ 2) :
    ∃ (δ c c₁ : ℝ), (NoisyGate.sequence (List.replicate r (idle fun _ => δ))).infidelity cl mcu false (par L []) [Z] (.int 1) K = .ok c ∧
      (idle fun _ => δ).infidelity cl mcu false (par L []) [Z] (.int 1) K = .ok c₁ ∧ 0 < c₁ ∧ q * c₁ < c := by
  have hmean : ∀ x : ℝ, mean ((List.range K).map fun _ => x) = x := by
    intro x
    have : (K : ℝ) ≠ 0 := by positivity
    simp [mean, this]
  obtain ⟨δ, hs, h2⟩ := sin_repeated r hr q hq
  have e1 := c154_idle cl mcu L h K hK (List.replicate r fun _ => δ) (by simpa using hr.ne')
  have e2 := c154_idle cl mcu L h K hK [fun _ => δ] (by simp)
  rw [List.map_replicate] at e1
  simp only [List.map_replicate, List.sum_replicate, nsmul_eq_mul, hmean] at e1
  simp only [List.map_cons, List.map_nil, sequence_single, List.sum_cons, List.sum_nil, add_zero, hmean] at e2
  exact ⟨δ, _, _, e1, e2, by positivity, h2⟩

open Ex154 Ex115 in
/-- **C154** Noise of the opposite sign in the second gate undoes the noise in the first: the sequence may be better than each of its
gates. -/
theorem c154_refocused (cl : Closest) (mcu : Bool) (L : Lapack (Fin 2)) (h : L.EighOk) (K : Nat) (hK : 0 < K) (δ : Nat → ℝ) :
    (idle δ).infidelity cl mcu false (par L []) [Z] (.int 1) K = .ok (mean ((List.range K).map fun k => Real.sin (δ k) ^ 2)) ∧
    (idle fun k => -δ k).infidelity cl mcu false (par L []) [Z] (.int 1) K = .ok (mean ((List.range K).map fun k => Real.sin (δ k) ^ 2)) ∧
    (NoisyGate.sequence [idle δ, idle fun k => -δ k]).infidelity cl mcu false (par L []) [Z] (.int 1) K = .ok 0 := by
  have e1 := c154_idle cl mcu L h K hK [δ] (by simp)
  have e2 := c154_idle cl mcu L h K hK [fun k => -δ k] (by simp)
  have e3 := c154_idle cl mcu L h K hK [δ, fun k => -δ k] (by simp)
  simp only [List.map_cons, List.map_nil, sequence_single, List.sum_cons, List.sum_nil, add_zero, Real.sin_neg, neg_sq] at e1 e2 e3
  refine ⟨e1, e2, e3.trans ?_⟩
  simp [mean]

/-! ## Examples -/

namespace Ex154
open Ex115

/-- A pulse of two steps with controls, exposed to noise which differs from step to step and from trace to trace. -/
noncomputable def driven : NoisyGate (Fin 2) none := ⟨Ex123.g₂, [fun _ k => k, fun _ k => 1 - k]⟩

theorem driven_ok {L : Lapack (Fin 2)} (h : L.EighOk) : driven.Ok (par L []) := ⟨Ex123.g₂_ok h, rfl⟩

/-- An idle step, a pulse and an idle step, with the noise of five traces; the pulse twelve times. -/
example (cl : Closest) : ∃ (L : Lapack (Fin 2)) (c c₁ c₂ c₃ c₁₂ : ℝ),
    (idle fun k => k).infidelity cl false false (par L []) [Z] (.int 1) 5 = .ok c₁ ∧
    driven.infidelity cl false false (par L []) [Z] (.int 1) 5 = .ok c₂ ∧
    (idle fun k => 2 * k).infidelity cl false false (par L []) [Z] (.int 1) 5 = .ok c₃ ∧
    (NoisyGate.sequence [idle fun k => k, driven, idle fun k => 2 * k]).infidelity cl false false (par L []) [Z] (.int 1) 5 = .ok c ∧
    √c ≤ √c₁ + √c₂ + √c₃ ∧
    (NoisyGate.sequence (List.replicate 12 driven)).infidelity cl false false (par L []) [Z] (.int 1) 5 = .ok c₁₂ ∧ c₁₂ ≤ 144 * c₂ := by
  obtain ⟨L, hE, -, -, -⟩ := lapack_exists (Fin 2)
  have hM := solver_ok L 5 (by norm_num)
  obtain ⟨c, cg, e1, e2, -, -, e5⟩ := c154_sequence (par L []) [Z] (.int 1) 5 hM cl none (by simp) ⟨(0 : Fin 2)⟩ false (Or.inl rfl)
    [idle fun k => k, driven, idle fun k => 2 * k] (by simp) (by simp [idle_ok hE, driven_ok hE])
  obtain ⟨-, c₁₂, c₂', f1, f2, -, f4⟩ := c154_repeated (par L []) [Z] (.int 1) 5 hM cl none (by simp) ⟨(0 : Fin 2)⟩ false (Or.inl rfl) driven
    (driven_ok hE) 12 (by norm_num)
  match cg, e2, e5 with
  | [c₁, c₂, c₃], e2, e5 =>
    simp only [List.map_cons, List.map_nil, List.cons.injEq, and_true] at e2
    obtain ⟨h1, h2, h3⟩ := e2
    rw [h2] at f2
    obtain rfl := Except.ok.inj f2
    exact ⟨L, c, c₁, c₂, c₃, c₁₂, h1, h2, h3, e1, by simpa [add_assoc] using e5, f1, by norm_num at f4; exact f4⟩
  | [], e2, _ => simp at e2
  | [_], e2, _ => simp at e2
  | [_, _], e2, _ => simp at e2
  | _ :: _ :: _ :: _ :: _, e2, _ => simp at e2

/-- The noise alone, and a gate next to an idle step. -/
example (cl : Closest) : ∃ (L : Lapack (Fin 2)) (c a b d : ℝ) (cg : List ℝ),
    (NoisyGate.sequence [driven, idle fun k => k]).infidelity cl false true (par L []) [Z] (.int 1) 5 = .ok c ∧
    √c ≤ (cg.map Real.sqrt).sum ∧ cg.length = 2 ∧
    driven.infidelity cl false false (par L []) [Z] (.int 1) 5 = .ok a ∧
    (idle fun k => k).infidelity cl false false (par L []) [Z] (.int 1) 5 = .ok b ∧
    (NoisyGate.sequence [driven, idle fun k => k]).infidelity cl false false (par L []) [Z] (.int 1) 5 = .ok d ∧ |√a - √b| ≤ √d := by
  obtain ⟨L, hE, -, -, -⟩ := lapack_exists (Fin 2)
  have hM := solver_ok L 5 (by norm_num)
  obtain ⟨c, cg, e1, e2, -, -, e5⟩ := c154_neglect (par L []) [Z] (.int 1) 5 hM cl ⟨0⟩ false
    [driven, idle fun k => k] (by simp) (by simp [idle_ok hE, driven_ok hE])
  obtain ⟨a, b, d, f1, f2, f3, f4⟩ := c154_not_hidden (par L []) [Z] (.int 1) 5 hM cl none (by simp) ⟨(0 : Fin 2)⟩ false (Or.inl rfl)
    driven (idle fun k => k) (driven_ok hE) (idle_ok hE _)
  exact ⟨L, c, a, b, d, cg, e1, e5, by simpa using (congrArg List.length e2).symm, f1, f2, f3, f4⟩

/-- Three repetitions of the same small angle cost more than eight times one of them. -/
example (cl : Closest) : ∃ (L : Lapack (Fin 2)) (δ c c₁ : ℝ),
    (NoisyGate.sequence (List.replicate 3 (idle fun _ => δ))).infidelity cl false false (par L []) [Z] (.int 1) 5 = .ok c ∧
    (idle fun _ => δ).infidelity cl false false (par L []) [Z] (.int 1) 5 = .ok c₁ ∧ 0 < c₁ ∧ 8 * c₁ < c := by
  obtain ⟨L, hE, -, -, -⟩ := lapack_exists (Fin 2)
  obtain ⟨δ, c, c₁, h⟩ := c154_attained cl false L hE 5 (by norm_num) 3 (by norm_num) 8 (by norm_num)
  exact ⟨L, δ, c, c₁, h⟩

end Ex154

end Verif.Sim
