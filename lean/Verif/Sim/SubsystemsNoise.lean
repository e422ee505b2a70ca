import Verif.Sim.NoiseDescriptions
import Verif.Sim.Subsystems

/-!
# C164: noise of subsystems which do not interact

Two subsystems without interaction, each with its own noise, are simulated together with `SchroedingerSMonteCarlo`
(solver_algorithms.py:1015-1410).  The Hamiltonians and noise operators are combined with `DenseOperator.kron` (matrix.py:961-970).
-/

namespace Verif.Sim
open Verif Verif.Transfer Verif.Operator Verif.Solver Verif.Cost Matrix
open scoped Kronecker

variable {n k : Type} [Fintype n] [DecidableEq n] [Fintype k] [DecidableEq k]

/-! ## Specification -/

/-- `M` simulates the subsystems of `A` and `B` together: they do not interact, the noise operators and samples are those of `A`,
followed by those of `B`. -/
structure Pair (p : SPar (n × k) (n × k)) (a : SPar n n) (b : SPar k k) (τ : List ℝ) (M : MC (n × k) (n × k)) (A : MC n n) (B : MC k k) :
    Prop where
  apart : Apart p a b
  timesA : a.xTimes τ = p.xTimes τ
  timesB : b.xTimes τ = p.xTimes τ
  pulse : NoisyPulse p τ M.hNoise
  pulseA : NoisyPulse a τ A.hNoise
  pulseB : NoisyPulse b τ B.hNoise
  given : Given M p τ
  givenA : Given A a τ
  givenB : Given B b τ
  procs : M.ProcsOk
  procsA : A.ProcsOk
  procsB : B.ProcsOk
  ops : M.hNoise = A.hNoise.map (fun H => H ⊗ₖ (1 : Matrix k k ℂ)) ++ B.hNoise.map fun H => (1 : Matrix n n ℂ) ⊗ₖ H
  tracesA : A.nTraces = M.nTraces
  tracesB : B.nTraces = M.nTraces
  samplesA : ∀ j i t, j < A.hNoise.length → M.samples.val j i t = A.samples.val j i t
  samplesB : ∀ j i t, j < B.hNoise.length → M.samples.val (A.hNoise.length + j) i t = B.samples.val j i t

/-- The samples of all noise operators vanish. -/
def Quiet (B : MC k k) : Prop := ∀ j i t, j < B.hNoise.length → B.samples.val j i t = 0

/-! ## Lemmas -/

omit [DecidableEq n] [DecidableEq k] in
theorem foldl_kron {as : List (Matrix n n ℂ)} {bs : List (Matrix k k ℂ)} (h : as.length = bs.length) (X : Matrix n n ℂ) (Y : Matrix k k ℂ) :
    (List.zipWith (fun A B => A ⊗ₖ B) as bs).foldl (fun F P => P * F) (X ⊗ₖ Y) =
      as.foldl (fun F P => P * F) X ⊗ₖ bs.foldl (fun F P => P * F) Y := by
  induction as generalizing bs X Y with
  | nil =>
    cases bs with
    | nil => rfl
    | cons B bs => simp at h
  | cons A as ih =>
    cases bs with
    | nil => simp at h
    | cons B bs =>
      rw [List.zipWith_cons_cons, List.foldl_cons, ← Matrix.mul_kronecker_mul, ih (by simpa using h)]
      rfl

omit [Fintype n] [Fintype k] in
theorem noise_kron (hA : List (Matrix n n ℂ)) (hB : List (Matrix k k ℂ)) {L : List (Matrix (n × k) (n × k) ℂ)}
    (hL : L = hA.map (fun H => H ⊗ₖ (1 : Matrix k k ℂ)) ++ hB.map fun H => (1 : Matrix n n ℂ) ⊗ₖ H) (c : Nat → ℂ) :
    ∑ j : Fin L.length, c j • L[j] = (∑ j : Fin hA.length, c j • hA[j]) ⊗ₖ (1 : Matrix k k ℂ) +
      (1 : Matrix n n ℂ) ⊗ₖ ∑ j : Fin hB.length, c (hA.length + j) • hB[j] := by
  subst hL
  have hl : (hA.map (fun H => H ⊗ₖ (1 : Matrix k k ℂ)) ++ hB.map fun H => (1 : Matrix n n ℂ) ⊗ₖ H).length = hA.length + hB.length := by simp
  have h1 : ∀ S : Finset (Fin hA.length), (∑ j ∈ S, c j • hA[j]) ⊗ₖ (1 : Matrix k k ℂ) = ∑ j ∈ S, c j • (hA[j] ⊗ₖ (1 : Matrix k k ℂ)) := by
    intro S
    induction S using Finset.induction_on with
    | empty => simp
    | insert a s ha ih => rw [Finset.sum_insert ha, Finset.sum_insert ha, Matrix.add_kronecker, ih, Matrix.smul_kronecker]
  have h2 : ∀ S : Finset (Fin hB.length), (1 : Matrix n n ℂ) ⊗ₖ (∑ j ∈ S, c (hA.length + j) • hB[j]) =
      ∑ j ∈ S, c (hA.length + j) • ((1 : Matrix n n ℂ) ⊗ₖ hB[j]) := by
    intro S
    induction S using Finset.induction_on with
    | empty => simp
    | insert a s ha ih => rw [Finset.sum_insert ha, Finset.sum_insert ha, Matrix.kronecker_add, ih, Matrix.kronecker_smul]
  rw [h1, h2]
  rw [← Equiv.sum_comp (finCongr hl.symm), Fin.sum_univ_add]
  congr 1
  · refine Finset.sum_congr rfl fun j _ => ?_
    simp [List.getElem_append_left]
  · refine Finset.sum_congr rfl fun j _ => ?_
    simp [List.getElem_append_right]

/-- The final operators of all traces are Kronecker products. -/
theorem Pair.final {p : SPar (n × k) (n × k)} {a : SPar n n} {b : SPar k k} {τ : List ℝ} {M : MC (n × k) (n × k)} {A : MC n n} {B : MC k k}
    (h : Pair p a b τ M A B) {u v : Solver.Pulse} (hu : u.length = (p.xTimes τ).length) (hv : v.length = (p.xTimes τ).length)
    (hru : ∀ r ∈ u, r.length = a.ctrl.length)
    (z : Fin M.hNoise.length → Fin (p.xTimes τ).length → ℝ) (x : Fin A.hNoise.length → Fin (a.xTimes τ).length → ℝ)
    (y : Fin B.hNoise.length → Fin (b.xTimes τ).length → ℝ) (c : Nat → Nat → ℝ) (hz : ∀ j t, z j t = c j t) (hx : ∀ j t, x j t = c j t)
    (hy : ∀ j t, y j t = c (A.hNoise.length + j) t) :
    noisyFinal p M.hNoise τ (together u v) z = noisyFinal a A.hNoise τ u x ⊗ₖ noisyFinal b B.hNoise τ v y := by
  have la : (a.xTimes τ).length = (p.xTimes τ).length := by rw [h.timesA]
  have lb : (b.xTimes τ).length = (p.xTimes τ).length := by rw [h.timesB]
  have hda : a.drift.length = (p.xTimes τ).length := h.pulseA.valid.2.1.trans la
  have hdb : b.drift.length = (p.xTimes τ).length := h.pulseB.valid.2.1.trans lb
  unfold noisyFinal
  rw [h.apart.init, ← foldl_kron (by simp [la, lb])]
  congr 1
  refine List.ext_getElem (by simp [la, lb]) fun i h1 h2 => ?_
  have i0 : i < (p.xTimes τ).length := by simpa using h1
  have i1 : i < (a.xTimes τ).length := by rw [la]; exact i0
  have i2 : i < (b.xTimes τ).length := by rw [lb]; exact i0
  rw [List.getElem_zipWith, List.getElem_ofFn, List.getElem_ofFn, List.getElem_ofFn]
  show noisyStep p M.hNoise τ (together u v) z ⟨i, i0⟩ = noisyStep a A.hNoise τ u x ⟨i, i1⟩ ⊗ₖ noisyStep b B.hNoise τ v y ⟨i, i2⟩
  unfold noisyStep
  rw [← exp_apart]
  congr 1
  have ta : (((a.xTimes τ)[(⟨i, i1⟩ : Fin _)] : ℝ) : ℂ) = (((p.xTimes τ)[(⟨i, i0⟩ : Fin _)] : ℝ) : ℂ) := by
    show (((a.xTimes τ)[i] : ℝ) : ℂ) = (((p.xTimes τ)[i] : ℝ) : ℂ)
    simp only [h.timesA]
  have tb : (((b.xTimes τ)[(⟨i, i2⟩ : Fin _)] : ℝ) : ℂ) = (((p.xTimes τ)[(⟨i, i0⟩ : Fin _)] : ℝ) : ℂ) := by
    show (((b.xTimes τ)[i] : ℝ) : ℂ) = (((p.xTimes τ)[i] : ℝ) : ℂ)
    simp only [h.timesB]
  rw [ta, tb, Matrix.smul_kronecker, Matrix.smul_kronecker, Matrix.kronecker_smul, Matrix.kronecker_smul, ← smul_add, ← smul_add]
  congr 2
  have en : ∑ j : Fin M.hNoise.length, ((z j ⟨i, i0⟩ : ℝ) : ℂ) • M.hNoise[j] = (∑ j, ((x j ⟨i, i1⟩ : ℝ) : ℂ) • A.hNoise[j]) ⊗ₖ (1 : Matrix k k ℂ) +
      (1 : Matrix n n ℂ) ⊗ₖ ∑ j, ((y j ⟨i, i2⟩ : ℝ) : ℂ) • B.hNoise[j] := by
    have := noise_kron A.hNoise B.hNoise h.ops fun j => ((c j i : ℝ) : ℂ)
    simp only [hz, hx, hy]
    exact this
  have eh : hamiltonian (p.drift.getD i 0) p.ctrl ((together u v).getD i []) = hamiltonian (a.drift.getD i 0) a.ctrl (u.getD i []) ⊗ₖ (1 : Matrix k k ℂ) +
      (1 : Matrix n n ℂ) ⊗ₖ hamiltonian (b.drift.getD i 0) b.ctrl (v.getD i []) := by
    have e1 : p.drift.getD i 0 = a.drift.getD i 0 ⊗ₖ (1 : Matrix k k ℂ) + (1 : Matrix n n ℂ) ⊗ₖ b.drift.getD i 0 := by
      rw [h.apart.drift, List.getD_eq_getElem _ _ (by simp [hda, hdb, i0]), List.getElem_zipWith,
        List.getD_eq_getElem a.drift _ (by omega), List.getD_eq_getElem b.drift _ (by omega)]
    have iu : i < u.length := by omega
    have iv : i < v.length := by omega
    have e2 : (together u v).getD i [] = u[i] ++ v[i] := by
      rw [together, List.getD_eq_getElem _ _ (by simp [hu, hv, i0]), List.getElem_zipWith]
    rw [e1, e2, h.apart.ctrl, hamiltonian_apart _ _ _ _ _ _ (hru _ (List.getElem_mem iu)), List.getD_eq_getElem u _ iu, List.getD_eq_getElem v _ iv]
  rw [en]
  refine (congrArg (· + _) eh).trans ?_
  rw [Matrix.add_kronecker, Matrix.kronecker_add]
  abel

theorem entFid_kron (cl cl₁ cl₂ : Closest) (mcu : Bool) (T₁ U : Matrix n n ℂ) (T₂ V : Matrix k k ℂ) :
    entFid (n := n × k) cl none (T₁ ⊗ₖ T₂) (U ⊗ₖ V) mcu = entFid (n := n) cl₁ none T₁ U mcu * entFid (n := k) cl₂ none T₂ V mcu := by
  have ht : ∀ {i : Type} [Fintype i] [DecidableEq i] (cl : Closest) (T W : Matrix i i ℂ),
      entFid cl none T W mcu = ‖(Tᴴ * W).trace‖ ^ 2 / Fintype.card i / Fintype.card i := by
    intro i _ _ cl T W
    cases mcu <;> rfl
  rw [ht, ht, ht, Matrix.conjTranspose_kronecker, ← Matrix.mul_kronecker_mul, Matrix.trace_kronecker, norm_mul, Fintype.card_prod]
  push_cast
  ring

/-- Values of the three costs. -/
theorem Pair.values {p : SPar (n × k) (n × k)} {a : SPar n n} {b : SPar k k} {τ : List ℝ} {M : MC (n × k) (n × k)} {A : MC n n} {B : MC k k}
    (h : Pair p a b τ M A B) (cl cl₁ cl₂ : Closest) (mcu nse : Bool) (T₁ : Matrix n n ℂ) (T₂ : Matrix k k ℂ)
    {u v : Solver.Pulse} (y y₁ y₂ : Solver.Pulse) (hu : ampsOf a.cfg τ y₁ = some u) (hv : ampsOf b.cfg τ y₂ = some v)
    (hw : ampsOf p.cfg τ y = some (together u v)) (z x z₁ x₁ z₂ x₂ : Solver.Pulse) :
    ∃ F₁ F₂ : Fin M.nTraces → ℝ,
      mcCosts (n := n) cl₁ none T₁ mcu nse A (p.xTimes τ) z₁ x₁ u = .ok ((∑ i, F₁ i) / M.nTraces) ∧
      mcCosts (n := k) cl₂ none T₂ mcu nse B (p.xTimes τ) z₂ x₂ v = .ok ((∑ i, F₂ i) / M.nTraces) ∧
      mcCosts (n := n × k) cl none (T₁ ⊗ₖ T₂) mcu nse M (p.xTimes τ) z x (together u v) =
        .ok ((∑ i, (1 - (1 - F₁ i) * (1 - F₂ i))) / M.nTraces) ∧
      (∀ i, F₁ i = traceInfidelity (n := n) cl₁ none T₁ mcu nse a A.hNoise τ u (traceOf _ _ A.samples i)) ∧
      ∀ i, F₂ i = traceInfidelity (n := k) cl₂ none T₂ mcu nse b B.hNoise τ v (traceOf _ _ B.samples i) := by
  have la : (a.xTimes τ).length = (p.xTimes τ).length := by rw [h.timesA]
  have lb : (b.xTimes τ).length = (p.xTimes τ).length := by rw [h.timesB]
  have su := ampsOf_shape a.cfg τ y₁ u hu
  have sv := ampsOf_shape b.cfg τ y₂ v hv
  have hm : ∀ {K K' : Nat} (_ : K' = K) (f : Nat → ℝ),
      (Except.ok ((∑ i : Fin K', f i) / K') : Except PyErr ℝ) = .ok ((∑ i : Fin K, f i) / K) := by
    intro K K' hK f
    subst hK
    rfl
  refine ⟨fun i => traceInfidelity (n := n) cl₁ none T₁ mcu nse a A.hNoise τ u (traceOf _ _ A.samples i),
    fun i => traceInfidelity (n := k) cl₂ none T₂ mcu nse b B.hNoise τ v (traceOf _ _ B.samples i), ?_, ?_, ?_, fun i => rfl, fun i => rfl⟩
  · have q := h.pulseA
    have g := h.givenA
    rw [← h.timesA, mcCosts_value a τ q.valid q.stable q.method q.expm q.times A g.base h.procsA g.amp g.ops g.traces g.times cl₁ none T₁ mcu nse
      y₁ u z₁ x₁ hu]
    exact hm h.tracesA fun i => traceInfidelity (n := n) cl₁ none T₁ mcu nse a A.hNoise τ u (traceOf _ _ A.samples i)
  · have q := h.pulseB
    have g := h.givenB
    rw [← h.timesB, mcCosts_value b τ q.valid q.stable q.method q.expm q.times B g.base h.procsB g.amp g.ops g.traces g.times cl₂ none T₂ mcu nse
      y₂ v z₂ x₂ hv]
    exact hm h.tracesB fun i => traceInfidelity (n := k) cl₂ none T₂ mcu nse b B.hNoise τ v (traceOf _ _ B.samples i)
  · have q := h.pulse
    have g := h.given
    rw [mcCosts_value p τ q.valid q.stable q.method q.expm q.times M g.base h.procs g.amp g.ops g.traces g.times cl none (T₁ ⊗ₖ T₂) mcu nse
      y (together u v) z x hw]
    refine congrArg (fun s : ℝ => Except.ok (s / M.nTraces)) (Finset.sum_congr rfl fun i _ => ?_)
    have e0 := h.final (su.1.trans la) (sv.1.trans lb) su.2 0 0 0 (fun _ _ => 0) (fun _ _ => rfl) (fun _ _ => rfl) fun _ _ => rfl
    have e1 := h.final (su.1.trans la) (sv.1.trans lb) su.2 (traceOf _ _ M.samples i) (traceOf _ _ A.samples i) (traceOf _ _ B.samples i)
      (fun j t => M.samples.val j i t) (fun _ _ => rfl) (fun j t => (h.samplesA j i t j.2).symm) fun j t => (h.samplesB j i t j.2).symm
    unfold traceInfidelity
    rw [e0, e1]
    cases nse
    · have := entFid_kron cl cl₁ cl₂ mcu T₁ (noisyFinal a A.hNoise τ u (traceOf _ _ A.samples i)) T₂
        (noisyFinal b B.hNoise τ v (traceOf _ _ B.samples i))
      simp only [Bool.false_eq_true, sub_sub_cancel]
      exact congrArg (1 - ·) this
    · have := entFid_kron cl cl₁ cl₂ mcu (noisyFinal a A.hNoise τ u 0) (noisyFinal a A.hNoise τ u (traceOf _ _ A.samples i))
        (noisyFinal b B.hNoise τ v 0) (noisyFinal b B.hNoise τ v (traceOf _ _ B.samples i))
      simp only [sub_sub_cancel]
      exact congrArg (1 - ·) this

omit [Fintype k] [DecidableEq k] in
theorem quiet_trace {B : MC k k} (h : Quiet B) (K N : Nat) (i : Fin K) :
    (traceOf B.hNoise.length N B.samples i : Fin B.hNoise.length → Fin N → ℝ) = 0 := by
  funext j t
  exact h j i t j.2

theorem mean_mono {K : Nat} {f g : Fin K → ℝ} (h : ∀ i, f i ≤ g i) : (∑ i, f i) / K ≤ (∑ i, g i) / K :=
  div_le_div_of_nonneg_right (Finset.sum_le_sum fun i _ => h i) (Nat.cast_nonneg K)

/-- The derivative of an infidelity of a product of fidelities. -/
theorem grad_pair {N C Na Ca Nb Cb : Nat} (hA : Na = N) (hB : Nb = N) (hC : C = Ca + Cb) {f : (Fin N → Fin C → ℝ) → ℝ}
    {fa : (Fin Na → Fin Ca → ℝ) → ℝ} {fb : (Fin Nb → Fin Cb → ℝ) → ℝ}
    (hf : ∀ W Wa Wb, rowsOf W = together (rowsOf Wa) (rowsOf Wb) → f W = 1 - (1 - fa Wa) * (1 - fb Wb))
    {U : Fin N → Fin C → ℝ} {Ua : Fin Na → Fin Ca → ℝ} {Ub : Fin Nb → Fin Cb → ℝ} (hU : rowsOf U = together (rowsOf Ua) (rowsOf Ub))
    {L : (Fin N → Fin C → ℝ) →L[ℝ] ℝ} {La : (Fin Na → Fin Ca → ℝ) →L[ℝ] ℝ} {Lb : (Fin Nb → Fin Cb → ℝ) →L[ℝ] ℝ}
    {g : Fin N → Fin C → ℝ} {ga : Fin Na → Fin Ca → ℝ} {gb : Fin Nb → Fin Cb → ℝ}
    (h : HasFDerivAt f L U) (ha : HasFDerivAt fa La Ua) (hb : HasFDerivAt fb Lb Ub) (hg : ∀ V, L V = ∑ t, ∑ c, g t c * V t c)
    (hga : ∀ V, La V = ∑ t, ∑ c, ga t c * V t c) (hgb : ∀ V, Lb V = ∑ t, ∑ c, gb t c * V t c) :
    rowsOf g = together (rowsOf fun t c => (1 - fb Ub) * ga t c) (rowsOf fun t c => (1 - fa Ua) * gb t c) := by
  subst hA hB hC
  have split : ∀ W : Fin Nb → Fin (Ca + Cb) → ℝ,
      rowsOf W = together (rowsOf fun t c => W t (Fin.castAdd Cb c)) (rowsOf fun t c => W t (Fin.natAdd Ca c)) := by
    intro W
    refine List.ext_getElem (by simp [rowsOf, together]) fun i h1 h2 => ?_
    simp only [rowsOf, together, List.getElem_zipWith, List.getElem_ofFn]
    rw [List.ofFn_add]
    rfl
  have inj : ∀ {X X' : Fin Nb → Fin Ca → ℝ} {Y Y' : Fin Nb → Fin Cb → ℝ},
      together (rowsOf X) (rowsOf Y) = together (rowsOf X') (rowsOf Y') → X = X' ∧ Y = Y' := by
    intro X X' Y Y' e
    have key : ∀ t : Fin Nb, X t = X' t ∧ Y t = Y' t := by
      intro t
      have e' := List.getElem_of_eq e (i := t) (by simp [rowsOf, together])
      simp only [rowsOf, together, List.getElem_zipWith, List.getElem_ofFn] at e'
      obtain ⟨e1, e2⟩ := List.append_inj e' (by simp)
      exact ⟨List.ofFn_injective e1, List.ofFn_injective e2⟩
    exact ⟨funext fun t => (key t).1, funext fun t => (key t).2⟩
  obtain ⟨rfl, rfl⟩ := inj ((split U).symm.trans hU)
  let l : (Fin Nb → Fin (Ca + Cb) → ℝ) →ₗ[ℝ] (Fin Nb → Fin Ca → ℝ) :=
    { toFun := fun W t c => W t (Fin.castAdd Cb c), map_add' := fun _ _ => rfl, map_smul' := fun _ _ => rfl }
  let r : (Fin Nb → Fin (Ca + Cb) → ℝ) →ₗ[ℝ] (Fin Nb → Fin Cb → ℝ) :=
    { toFun := fun W t c => W t (Fin.natAdd Ca c), map_add' := fun _ _ => rfl, map_smul' := fun _ _ => rfl }
  have e : f = fun W => 1 - (1 - fa (l W)) * (1 - fb (r W)) := funext fun W => hf W _ _ (split W)
  have dl : HasFDerivAt (fun W => fa (l W)) (La.comp (LinearMap.toContinuousLinearMap l)) U :=
    HasFDerivAt.comp (g := fa) (f := l) U ha (LinearMap.toContinuousLinearMap l).hasFDerivAt
  have dr : HasFDerivAt (fun W => fb (r W)) (Lb.comp (LinearMap.toContinuousLinearMap r)) U :=
    HasFDerivAt.comp (g := fb) (f := r) U hb (LinearMap.toContinuousLinearMap r).hasFDerivAt
  have d := ((dl.const_sub 1).mul (dr.const_sub 1)).const_sub 1
  rw [e] at h
  have hgg := grad_unique (g' := fun t => Fin.append (fun c => (1 - fb (r U)) * ga t c) fun c => (1 - fa (l U)) * gb t c) h d hg ?_
  · rw [hgg, split]
    simp only [Fin.append_left, Fin.append_right]
    rfl
  · intro V
    have e1 : La (l V) = ∑ t, ∑ c, ga t c * V t (Fin.castAdd Cb c) := hga _
    have e2 : Lb (r V) = ∑ t, ∑ c, gb t c * V t (Fin.natAdd Ca c) := hgb _
    simp only [_root_.neg_apply, _root_.add_apply, _root_.smul_apply, ContinuousLinearMap.comp_apply,
      LinearMap.coe_toContinuousLinearMap', smul_eq_mul, e1, e2, Fin.sum_univ_add, Fin.append_left, Fin.append_right, Finset.sum_add_distrib,
      mul_assoc, ← Finset.mul_sum]
    ring

/-! ## Properties -/

/-- **C164** The noise infidelity of the pair is at least that of each of the subsystems and at most their sum. -/
theorem c164_infidelity (p : SPar (n × k) (n × k)) (a : SPar n n) (b : SPar k k) (τ : List ℝ) (M : MC (n × k) (n × k)) (A : MC n n) (B : MC k k)
    (h : Pair p a b τ M A B) [Nonempty n] [Nonempty k] (ha : a.init ∈ Matrix.unitaryGroup n ℂ) (hb : b.init ∈ Matrix.unitaryGroup k ℂ)
    (cl cl₁ cl₂ : Closest) (mcu nse : Bool) (T₁ : Matrix n n ℂ) (T₂ : Matrix k k ℂ) (hT₁ : nse = true ∨ T₁ ∈ Matrix.unitaryGroup n ℂ)
    (hT₂ : nse = true ∨ T₂ ∈ Matrix.unitaryGroup k ℂ) (y y₁ y₂ u v : Solver.Pulse) (hu : ampsOf a.cfg τ y₁ = some u)
    (hv : ampsOf b.cfg τ y₂ = some v) (hw : ampsOf p.cfg τ y = some (together u v)) (z x z₁ x₁ z₂ x₂ : Solver.Pulse) :
    ∃ c₁ c₂ c : ℝ, mcCosts (n := n) cl₁ none T₁ mcu nse A (p.xTimes τ) z₁ x₁ u = .ok c₁ ∧
      mcCosts (n := k) cl₂ none T₂ mcu nse B (p.xTimes τ) z₂ x₂ v = .ok c₂ ∧
      mcCosts (n := n × k) cl none (T₁ ⊗ₖ T₂) mcu nse M (p.xTimes τ) z x (together u v) = .ok c ∧
      max c₁ c₂ ≤ c ∧ c ≤ c₁ + c₂ := by
  obtain ⟨F₁, F₂, e1, e2, e3, f1, f2⟩ := h.values cl cl₁ cl₂ mcu nse T₁ T₂ y y₁ y₂ hu hv hw z x z₁ x₁ z₂ x₂
  have r1 : ∀ i, F₁ i ∈ Set.Icc (0 : ℝ) 1 := fun i => by
    rw [f1]
    exact traceInfidelity_range (n := n) cl₁ none ‹Nonempty n› (by simp) T₁ mcu nse (Or.inr rfl) hT₁ a A.hNoise τ h.pulseA.valid h.pulseA.drift
      h.pulseA.ctrl h.pulseA.noise ha u _
  have r2 : ∀ i, F₂ i ∈ Set.Icc (0 : ℝ) 1 := fun i => by
    rw [f2]
    exact traceInfidelity_range (n := k) cl₂ none ‹Nonempty k› (by simp) T₂ mcu nse (Or.inr rfl) hT₂ b B.hNoise τ h.pulseB.valid h.pulseB.drift
      h.pulseB.ctrl h.pulseB.noise hb v _
  refine ⟨_, _, _, e1, e2, e3, max_le (mean_mono fun i => ?_) (mean_mono fun i => ?_), ?_⟩
  · nlinarith [(r1 i).1, (r1 i).2, (r2 i).1, (r2 i).2]
  · nlinarith [(r1 i).1, (r1 i).2, (r2 i).1, (r2 i).2]
  · rw [← add_div, ← Finset.sum_add_distrib]
    exact mean_mono fun i => by nlinarith [(r1 i).1, (r2 i).1]

/-- **C164** If one of the subsystems has no noise, the fidelities multiply.  If systematic errors are neglected, the noise infidelity of
the pair is that of the other subsystem. -/
theorem c164_quiet (p : SPar (n × k) (n × k)) (a : SPar n n) (b : SPar k k) (τ : List ℝ) (M : MC (n × k) (n × k)) (A : MC n n) (B : MC k k)
    (h : Pair p a b τ M A B) (hq : Quiet B) (hK : 0 < M.nTraces) (cl cl₁ cl₂ : Closest) (mcu nse : Bool) (T₁ : Matrix n n ℂ) (T₂ : Matrix k k ℂ)
    (y y₁ y₂ u v : Solver.Pulse) (hu : ampsOf a.cfg τ y₁ = some u) (hv : ampsOf b.cfg τ y₂ = some v)
    (hw : ampsOf p.cfg τ y = some (together u v)) (z x z₁ x₁ z₂ x₂ : Solver.Pulse) :
    ∃ c₁ c₂ c : ℝ, mcCosts (n := n) cl₁ none T₁ mcu nse A (p.xTimes τ) z₁ x₁ u = .ok c₁ ∧
      mcCosts (n := k) cl₂ none T₂ mcu nse B (p.xTimes τ) z₂ x₂ v = .ok c₂ ∧
      mcCosts (n := n × k) cl none (T₁ ⊗ₖ T₂) mcu nse M (p.xTimes τ) z x (together u v) = .ok c ∧
      1 - c = (1 - c₁) * (1 - c₂) ∧
      (nse = true → Nonempty k → b.init ∈ Matrix.unitaryGroup k ℂ → c₂ = 0 ∧ c = c₁) := by
  obtain ⟨F₁, F₂, e1, e2, e3, f1, f2⟩ := h.values cl cl₁ cl₂ mcu nse T₁ T₂ y y₁ y₂ hu hv hw z x z₁ x₁ z₂ x₂
  have hK' : (M.nTraces : ℝ) ≠ 0 := by exact_mod_cast hK.ne'
  have hF : ∀ i, F₂ i = traceInfidelity (n := k) cl₂ none T₂ mcu nse b B.hNoise τ v 0 := fun i => by rw [f2, quiet_trace hq]
  have hprod : 1 - (∑ i, (1 - (1 - F₁ i) * (1 - F₂ i))) / (M.nTraces : ℝ) = (1 - (∑ i, F₁ i) / M.nTraces) * (1 - (∑ i, F₂ i) / M.nTraces) := by
    simp only [hF]
    rw [Finset.sum_sub_distrib, ← Finset.sum_mul, Finset.sum_sub_distrib]
    simp only [Finset.sum_const, Finset.card_univ, Fintype.card_fin, nsmul_eq_mul, mul_one]
    field_simp
    ring
  refine ⟨_, _, _, e1, e2, e3, hprod, fun hn hk hb => ?_⟩
  subst hn
  have h0 : (∑ i, F₂ i) / (M.nTraces : ℝ) = 0 := by
    have hU := noisyFinal_unitary b B.hNoise τ h.pulseB.valid h.pulseB.drift h.pulseB.ctrl h.pulseB.noise hb v 0
    have hone : traceInfidelity (n := k) cl₂ none T₂ mcu true b B.hNoise τ v 0 = 0 := by
      have hk' : (Fintype.card k : ℝ) ≠ 0 := by exact_mod_cast Fintype.card_ne_zero
      have ht : entFid (n := k) cl₂ none (noisyFinal b B.hNoise τ v 0) (noisyFinal b B.hNoise τ v 0) mcu =
          ‖((noisyFinal b B.hNoise τ v 0)ᴴ * noisyFinal b B.hNoise τ v 0).trace‖ ^ 2 / Fintype.card k / Fintype.card k := by
        cases mcu <;> rfl
      have hs : (noisyFinal b B.hNoise τ v 0)ᴴ * noisyFinal b B.hNoise τ v 0 = 1 := Matrix.mem_unitaryGroup_iff'.mp hU
      have : traceInfidelity (n := k) cl₂ none T₂ mcu true b B.hNoise τ v 0 =
          1 - entFid (n := k) cl₂ none (noisyFinal b B.hNoise τ v 0) (noisyFinal b B.hNoise τ v 0) mcu := rfl
      rw [this, ht, hs, Matrix.trace_one, Complex.norm_natCast]
      field_simp
      ring
    simp only [hF, hone, Finset.sum_const_zero, zero_div]
  refine ⟨h0, ?_⟩
  rw [h0] at hprod
  linarith

/-- **C164** Gradients if one of the subsystems has no noise. -/
theorem c164_gradient (p : SPar (n × k) (n × k)) (a : SPar n n) (b : SPar k k) (τ : List ℝ) (M : MC (n × k) (n × k)) (A : MC n n) (B : MC k k)
    (h : Pair p a b τ M A B) (hq : Quiet B) (hK : 0 < M.nTraces) (happ : p.approx = .none) (hF : p.L.FrechetOk) (happa : a.approx = .none)
    (hFa : a.L.FrechetOk) (happb : b.approx = .none) (hFb : b.L.FrechetOk)
    (hreach : ∀ U : Fin (p.xTimes τ).length → Fin p.ctrl.length → ℝ, ∃ y, ampsOf p.cfg τ y = some (rowsOf U))
    (hreacha : ∀ U : Fin (a.xTimes τ).length → Fin a.ctrl.length → ℝ, ∃ y, ampsOf a.cfg τ y = some (rowsOf U))
    (hreachb : ∀ U : Fin (b.xTimes τ).length → Fin b.ctrl.length → ℝ, ∃ y, ampsOf b.cfg τ y = some (rowsOf U))
    (hp : M.procs = .int 1) (hpa : A.procs = .int 1) (hpb : B.procs = .int 1)
    (cl cl₁ cl₂ : Closest) (mcu nse : Bool) (T₁ : Matrix n n ℂ) (T₂ : Matrix k k ℂ) (z x z₁ x₁ z₂ x₂ : Solver.Pulse)
    (U : Fin (a.xTimes τ).length → Fin a.ctrl.length → ℝ) (V : Fin (b.xTimes τ).length → Fin b.ctrl.length → ℝ) :
    ∃ (c₁ c₂ : ℝ) (g₁ : Fin (a.xTimes τ).length → Fin a.ctrl.length → ℝ) (g₂ : Fin (b.xTimes τ).length → Fin b.ctrl.length → ℝ),
      mcCosts (n := n) cl₁ none T₁ mcu nse A (a.xTimes τ) z₁ x₁ (rowsOf U) = .ok c₁ ∧
      mcCosts (n := k) cl₂ none T₂ mcu nse B (b.xTimes τ) z₂ x₂ (rowsOf V) = .ok c₂ ∧
      mcGrad (n := n) cl₁ none T₁ mcu nse A (a.xTimes τ) z₁ x₁ (rowsOf U) = .ok (rowsOf g₁) ∧
      mcGrad (n := k) cl₂ none T₂ mcu nse B (b.xTimes τ) z₂ x₂ (rowsOf V) = .ok (rowsOf g₂) ∧
      mcGrad (n := n × k) cl none (T₁ ⊗ₖ T₂) mcu nse M (p.xTimes τ) z x (together (rowsOf U) (rowsOf V)) =
        .ok (together (rowsOf fun t c => (1 - c₂) * g₁ t c) (rowsOf fun t c => (1 - c₁) * g₂ t c)) := by
  have la : (a.xTimes τ).length = (p.xTimes τ).length := by rw [h.timesA]
  have lb : (b.xTimes τ).length = (p.xTimes τ).length := by rw [h.timesB]
  have hC : p.ctrl.length = a.ctrl.length + b.ctrl.length := by rw [h.apart.ctrl]; simp
  obtain ⟨W, hW⟩ : ∃ W : Fin (p.xTimes τ).length → Fin p.ctrl.length → ℝ, rowsOf W = together (rowsOf U) (rowsOf V) := by
    have key : ∀ {N C Na Ca Nb Cb : Nat} (_ : Na = N) (_ : Nb = N) (_ : C = Ca + Cb) (U : Fin Na → Fin Ca → ℝ) (V : Fin Nb → Fin Cb → ℝ),
        ∃ W : Fin N → Fin C → ℝ, rowsOf W = together (rowsOf U) (rowsOf V) := by
      intro N C Na Ca Nb Cb h1 h2 h3 U V
      subst h1 h2 h3
      refine ⟨fun t => Fin.append (U t) (V t), ?_⟩
      refine List.ext_getElem (by simp [rowsOf, together]) fun i h1 h2 => ?_
      simp only [rowsOf, together, List.getElem_zipWith, List.getElem_ofFn]
      rw [List.ofFn_fin_append]
    exact key la lb hC U V
  have q := h.pulse
  have qa := h.pulseA
  have qb := h.pulseB
  have w := h.given
  have wa := h.givenA
  have wb := h.givenB
  obtain ⟨g, g1, g2, L, g3, g4⟩ := c93_noise_total p τ q.valid q.stable q.method happ q.expm hF q.times hreach M
    ⟨w.base, hp, w.amp, w.ops, w.traces, w.times, hK⟩ cl none (by simp) mcu nse (Or.inr rfl) (T₁ ⊗ₖ T₂) z x W
  obtain ⟨ga, a1, a2, La, a3, a4⟩ := c93_noise_total a τ qa.valid qa.stable qa.method happa qa.expm hFa qa.times hreacha A
    ⟨wa.base, hpa, wa.amp, wa.ops, wa.traces, wa.times, by rw [h.tracesA]; exact hK⟩ cl₁ none (by simp) mcu nse (Or.inr rfl) T₁ z₁ x₁ U
  obtain ⟨gb, b1, b2, Lb, b3, b4⟩ := c93_noise_total b τ qb.valid qb.stable qb.method happb qb.expm hFb qb.times hreachb B
    ⟨wb.base, hpb, wb.amp, wb.ops, wb.traces, wb.times, by rw [h.tracesB]; exact hK⟩ cl₂ none (by simp) mcu nse (Or.inr rfl) T₂ z₂ x₂ V
  refine ⟨_, _, ga, gb, a2 U, b2 V, a1, b1, ?_⟩
  rw [← hW, g1]
  refine congrArg Except.ok (grad_pair la lb hC (fun X Xa Xb hX => ?_) hW g3 a3 b3 g4 a4 b4)
  obtain ⟨y, hy⟩ := hreach X
  obtain ⟨y₁, hy₁⟩ := hreacha Xa
  obtain ⟨y₂, hy₂⟩ := hreachb Xb
  obtain ⟨c₁, c₂, c, e1, e2, e3, e4, -⟩ := c164_quiet p a b τ M A B h hq hK cl cl₁ cl₂ mcu nse T₁ T₂ y y₁ y₂ (rowsOf Xa) (rowsOf Xb) hy₁ hy₂
    (by rw [← hX]; exact hy) z x z₁ x₁ z₂ x₂
  rw [← h.timesA, a2] at e1
  rw [← h.timesB, b2] at e2
  rw [← hX, g2] at e3
  rw [Except.ok.inj e1, Except.ok.inj e2, Except.ok.inj e3]
  linarith

/-! ## Cases -/

namespace Ex164
open Ex115 Ex129

/-- Two qubits with noise of their frequencies, the first also of its drive. -/
noncomputable def first (L : Lapack (Fin 2)) : MC (Fin 2) (Fin 2) :=
  ⟨(one L).cfg, [Z, !![0, 1; 1, 0]], .int 1, none, 3, ⟨2, 3, 2, fun j i t => j + 2 * i - t⟩⟩

noncomputable def second (L : Lapack (Fin 2)) (s : ℝ) : MC (Fin 2) (Fin 2) :=
  ⟨(two L).cfg, [Z], .int 1, none, 3, ⟨1, 3, 2, fun _ i t => s * (i + t)⟩⟩

noncomputable def all (L : Lapack (Fin 2 × Fin 2)) (s : ℝ) : MC (Fin 2 × Fin 2) (Fin 2 × Fin 2) :=
  ⟨(both L).cfg, [Z ⊗ₖ 1, !![0, 1; 1, 0] ⊗ₖ 1, 1 ⊗ₖ Z], .int 1, none, 3,
    ⟨3, 3, 2, fun j i t => if j < 2 then j + 2 * i - t else s * (i + t)⟩⟩

theorem z_herm : (Z : Matrix (Fin 2) (Fin 2) ℂ).IsHermitian := by
  ext i j
  fin_cases i <;> fin_cases j <;> simp [Z]

theorem x_herm : (!![0, 1; 1, 0] : Matrix (Fin 2) (Fin 2) ℂ).IsHermitian := by
  ext i j
  fin_cases i <;> fin_cases j <;> simp

theorem y_herm : (!![0, -Complex.I; Complex.I, 0] : Matrix (Fin 2) (Fin 2) ℂ).IsHermitian := by
  ext i j
  fin_cases i <;> fin_cases j <;> simp

theorem kron_herm {X Y : Matrix (Fin 2) (Fin 2) ℂ} (hX : X.IsHermitian) (hY : Y.IsHermitian) : (X ⊗ₖ Y).IsHermitian := by
  unfold Matrix.IsHermitian
  rw [Matrix.conjTranspose_kronecker, hX.eq, hY.eq]

theorem one_herm : (1 : Matrix (Fin 2) (Fin 2) ℂ).IsHermitian := Matrix.isHermitian_one
theorem zero_herm : (0 : Matrix (Fin 2) (Fin 2) ℂ).IsHermitian := Matrix.isHermitian_zero

theorem pair {L : Lapack (Fin 2 × Fin 2)} {L' : Lapack (Fin 2)} (hE : L.ExpmOk) (hE' : L'.ExpmOk) (s : ℝ) :
    Pair (both L) (one L') (two L') [1, 2] (all L s) (first L') (second L' s) where
  apart := apart L L'
  timesA := rfl
  timesB := rfl
  pulse := by
    refine ⟨⟨by simp [both], rfl, by simp [both]⟩, Or.inl ⟨rfl, rfl⟩, rfl, hE, by simp [both], ?_, ?_, ?_⟩ <;> intro H hH <;>
      simp only [both, all, List.mem_cons, List.not_mem_nil, or_false] at hH
    · rcases hH with rfl | rfl
      · exact (kron_herm z_herm one_herm).add (kron_herm one_herm zero_herm)
      · exact (kron_herm zero_herm one_herm).add (kron_herm one_herm z_herm)
    · rcases hH with rfl | rfl | rfl
      · exact kron_herm x_herm one_herm
      · exact kron_herm one_herm y_herm
      · exact kron_herm one_herm z_herm
    · rcases hH with rfl | rfl | rfl
      · exact kron_herm z_herm one_herm
      · exact kron_herm x_herm one_herm
      · exact kron_herm one_herm z_herm
  pulseA := by
    refine ⟨⟨by simp [Ex129.one], rfl, by simp [Ex129.one]⟩, Or.inl ⟨rfl, rfl⟩, rfl, hE', by simp [Ex129.one], ?_, ?_, ?_⟩ <;> intro H hH <;>
      simp only [Ex129.one, first, List.mem_cons, List.not_mem_nil, or_false] at hH
    · rcases hH with rfl | rfl
      · exact z_herm
      · exact zero_herm
    · subst hH
      exact x_herm
    · rcases hH with rfl | rfl
      · exact z_herm
      · exact x_herm
  pulseB := by
    refine ⟨⟨by simp [two], rfl, by simp [two]⟩, Or.inl ⟨rfl, rfl⟩, rfl, hE', by simp [two], ?_, ?_, ?_⟩ <;> intro H hH <;>
      simp only [two, second, List.mem_cons, List.not_mem_nil, or_false] at hH
    · rcases hH with rfl | rfl
      · exact zero_herm
      · exact z_herm
    · rcases hH with rfl | rfl
      · exact y_herm
      · exact z_herm
    · subst hH
      exact z_herm
  given := ⟨rfl, rfl, rfl, rfl, rfl⟩
  givenA := ⟨rfl, rfl, rfl, rfl, rfl⟩
  givenB := ⟨rfl, rfl, rfl, rfl, rfl⟩
  procs := Or.inl rfl
  procsA := Or.inl rfl
  procsB := Or.inl rfl
  ops := rfl
  tracesA := rfl
  tracesB := rfl
  samplesA := fun j i t hj => if_pos hj
  samplesB := fun j i t _ => if_neg (by show ¬ 2 + j < 2; omega)

theorem amps (L : Lapack (Fin 2 × Fin 2)) (y : Solver.Pulse) (hl : y.length = 2) (hr : ∀ row ∈ y, row.length = 3) :
    ampsOf (both L).cfg [1, 2] y = some y :=
  ampsOf_simple L .frechet true .none 1 _ _ _ y (by rintro rfl; simp at hl) hl hr

theorem amps₁ (L : Lapack (Fin 2)) (y : Solver.Pulse) (hl : y.length = 2) (hr : ∀ row ∈ y, row.length = 1) :
    ampsOf (one L).cfg [1, 2] y = some y :=
  ampsOf_simple L .frechet true .none 1 _ _ _ y (by rintro rfl; simp at hl) hl hr

theorem amps₂ (L : Lapack (Fin 2)) (y : Solver.Pulse) (hl : y.length = 2) (hr : ∀ row ∈ y, row.length = 2) :
    ampsOf (two L).cfg [1, 2] y = some y :=
  ampsOf_simple L .frechet true .none 1 _ _ _ y (by rintro rfl; simp at hl) hl hr

/-- `c164_infidelity` applies. -/
example (cl : Closest) (nse : Bool) : ∃ (L : Lapack (Fin 2 × Fin 2)) (L' : Lapack (Fin 2)) (c₁ c₂ c : ℝ),
    mcCosts (n := Fin 2) cl none Z false nse (first L') [1, 2] [] [] [[3], [4]] = .ok c₁ ∧
    mcCosts (n := Fin 2) cl none 1 false nse (second L' 1) [1, 2] [] [] [[5, 6], [7, 8]] = .ok c₂ ∧
    mcCosts (n := Fin 2 × Fin 2) cl none (Z ⊗ₖ 1) false nse (all L 1) [1, 2] [] [] [[3, 5, 6], [4, 7, 8]] = .ok c ∧
    max c₁ c₂ ≤ c ∧ c ≤ c₁ + c₂ := by
  obtain ⟨L, -, -, hE, hF⟩ := lapack_exists (Fin 2 × Fin 2)
  obtain ⟨L', -, -, hE', hF'⟩ := lapack_exists (Fin 2)
  have hZ : (Z : Matrix (Fin 2) (Fin 2) ℂ) ∈ Matrix.unitaryGroup (Fin 2) ℂ := by
    rw [Matrix.mem_unitaryGroup_iff]
    ext i j
    fin_cases i <;> fin_cases j <;> simp [Z, Matrix.mul_apply, Fin.sum_univ_two, Matrix.star_apply]
  exact ⟨L, L', c164_infidelity (both L) (one L') (two L') [1, 2] (all L 1) (first L') (second L' 1) (pair hE hE' 1) (one_mem _) (one_mem _)
    cl cl cl false nse Z 1 (Or.inr hZ) (Or.inr (one_mem _)) [[3, 5, 6], [4, 7, 8]] [[3], [4]] [[5, 6], [7, 8]] [[3], [4]] [[5, 6], [7, 8]]
    (amps₁ L' _ rfl (by simp)) (amps₂ L' _ rfl (by simp)) (amps L _ rfl (by simp)) [] [] [] [] [] []⟩

/-- `c164_quiet` and `c164_gradient` apply if the samples of the second qubit vanish. -/
example (cl : Closest) (U : Fin 2 → Fin 1 → ℝ) (V : Fin 2 → Fin 2 → ℝ) : ∃ (L : Lapack (Fin 2 × Fin 2)) (L' : Lapack (Fin 2)) (c : ℝ),
    mcCosts (n := Fin 2) cl none Z false true (first L') [1, 2] [] [] [[3], [4]] = .ok c ∧
    mcCosts (n := Fin 2 × Fin 2) cl none (Z ⊗ₖ 1) false true (all L 0) [1, 2] [] [] [[3, 5, 6], [4, 7, 8]] = .ok c ∧
    ∃ (c₁ c₂ : ℝ) (g₁ : Fin 2 → Fin 1 → ℝ) (g₂ : Fin 2 → Fin 2 → ℝ),
      mcGrad (n := Fin 2) cl none Z false false (first L') [1, 2] [] [] (rowsOf U) = .ok (rowsOf g₁) ∧
      mcGrad (n := Fin 2 × Fin 2) cl none (Z ⊗ₖ 1) false false (all L 0) [1, 2] [] [] (together (rowsOf U) (rowsOf V)) =
        .ok (together (rowsOf fun t c => (1 - c₂) * g₁ t c) (rowsOf fun t c => (1 - c₁) * g₂ t c)) := by
  obtain ⟨L, -, -, hE, hF⟩ := lapack_exists (Fin 2 × Fin 2)
  obtain ⟨L', -, -, hE', hF'⟩ := lapack_exists (Fin 2)
  have hq : Quiet (second L' 0) := fun j i t _ => zero_mul _
  obtain ⟨c₁, c₂, c, e1, e2, e3, e4, e5⟩ := c164_quiet (both L) (one L') (two L') [1, 2] (all L 0) (first L') (second L' 0) (pair hE hE' 0) hq
    (by show 0 < 3; norm_num) cl cl cl false true Z 1 [[3, 5, 6], [4, 7, 8]] [[3], [4]] [[5, 6], [7, 8]] [[3], [4]] [[5, 6], [7, 8]]
    (amps₁ L' _ rfl (by simp)) (amps₂ L' _ rfl (by simp)) (amps L _ rfl (by simp)) [] [] [] [] [] []
  obtain ⟨d₁, d₂, g₁, g₂, -, -, k3, -, k5⟩ := c164_gradient (both L) (one L') (two L') [1, 2] (all L 0) (first L') (second L' 0) (pair hE hE' 0) hq
    (by show 0 < 3; norm_num) rfl hF rfl hF' rfl hF' (fun W => ⟨rowsOf W, amps L _ (rowsOf_shape W).1 (rowsOf_shape W).2⟩)
    (fun W => ⟨rowsOf W, amps₁ L' _ (rowsOf_shape W).1 (rowsOf_shape W).2⟩) (fun W => ⟨rowsOf W, amps₂ L' _ (rowsOf_shape W).1 (rowsOf_shape W).2⟩)
    rfl rfl rfl cl cl cl false false Z 1 [] [] [] [] [] [] U V
  exact ⟨L, L', c₁, e1, (e5 rfl ⟨0⟩ (one_mem _)).2 ▸ e3, d₁, d₂, g₁, g₂, k3, k5⟩

end Ex164

end Verif.Sim
