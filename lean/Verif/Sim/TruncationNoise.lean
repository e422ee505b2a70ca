import Verif.Sim.NoiseDescriptions
import Verif.Sim.Truncation

/-!
# C163: levels left out of a simulation with noise

The Hamiltonians and noise operators of `SchroedingerSMonteCarlo` (solver_algorithms.py:1015-1410) are restricted to the
computational states (matrix.py:1261-1303) before the solver is created, instead of passing `computational_states` to the noise
costs (cost_functions.py).
-/

namespace Verif.Sim
open Verif Verif.Transfer Verif.Operator Verif.Solver Verif.Cost Matrix

variable {n m k : Type} [Fintype n] [DecidableEq n]

/-! ## Specification -/

/-- `M'` simulates the system of `M` without the levels outside of `l`; neither the Hamiltonians nor the noise lead out of `l`. -/
structure Without (l : List n) (p : SPar n m) (r : SPar (Fin l.length) k) (τ : List ℝ) (M : MC n m) (M' : MC (Fin l.length) k) : Prop where
  leaves : LeavesOut l p r
  stays : StaysIn l p
  noise : ∀ H ∈ M.hNoise, Closed l (· ∈ l) H
  times : r.xTimes τ = p.xTimes τ
  pulse : NoisyPulse p τ M.hNoise
  pulse' : NoisyPulse r τ M'.hNoise
  given : Given M p τ
  given' : Given M' r τ
  procs : M.ProcsOk
  procs' : M'.ProcsOk
  ops : M'.hNoise = M.hNoise.map fun H => H.submatrix l.get l.get
  traces : M'.nTraces = M.nTraces
  samples : M'.samples = M.samples

/-! ## Lemmas -/

theorem foldl_emb [Fintype m] {l : List n} (S : Matrix m k ℂ) {ps : List (Matrix n n ℂ)} {qs : List (Matrix (Fin l.length) (Fin l.length) ℂ)}
    (h : List.Forall₂ (fun P Q => P * emb l = emb l * Q) ps qs) :
    ∀ (X : Matrix n m ℂ) (Y : Matrix (Fin l.length) k ℂ), X * S = emb l * Y →
      ps.foldl (fun F P => P * F) X * S = emb l * qs.foldl (fun F P => P * F) Y := by
  induction h with
  | nil => exact fun X Y h => h
  | cons h _ ih =>
    intro X Y hXY
    refine ih _ _ ?_
    rw [Matrix.mul_assoc, hXY, ← Matrix.mul_assoc, h, Matrix.mul_assoc]

/-- The evolution with noise on the subspace. -/
theorem noisyFinal_emb [Fintype m] {l : List n} {p : SPar n m} {r : SPar (Fin l.length) k} (hp : LeavesOut l p r) (hs : StaysIn l p)
    (S : Matrix m k ℂ) (hi : p.init * S = emb l * r.init) (τ : List ℝ) (hv : p.Valid τ) (hτ : r.xTimes τ = p.xTimes τ)
    (hN : List (Matrix n n ℂ)) (hN' : List (Matrix (Fin l.length) (Fin l.length) ℂ)) (hc : ∀ H ∈ hN, Closed l (· ∈ l) H)
    (hH : hN' = hN.map fun H => H.submatrix l.get l.get) (u : Solver.Pulse) (z : Fin hN.length → Fin (p.xTimes τ).length → ℝ)
    (z' : Fin hN'.length → Fin (r.xTimes τ).length → ℝ)
    (hz : ∀ (j : Fin hN.length) (j' : Fin hN'.length) (t : Fin (p.xTimes τ).length) (t' : Fin (r.xTimes τ).length),
      (j : Nat) = j' → (t : Nat) = t' → z' j' t' = z j t) :
    noisyFinal p hN τ u z * S = emb l * noisyFinal r hN' τ u z' := by
  have hl : (r.xTimes τ).length = (p.xTimes τ).length := by rw [hτ]
  refine foldl_emb S (List.forall₂_iff_get.mpr ⟨by rw [List.length_ofFn, List.length_ofFn]; exact hl.symm, fun i h1 h2 => ?_⟩) _ _ hi
  have i1 : i < (p.xTimes τ).length := by simpa using h1
  have i2 : i < (r.xTimes τ).length := by rw [hl]; exact i1
  have i3 : i < p.drift.length := by rw [hv.2.1]; exact i1
  rw [List.get_eq_getElem, List.get_eq_getElem, List.getElem_ofFn, List.getElem_ofFn]
  unfold noisyStep
  refine exp_intertwine ?_
  rw [Matrix.smul_mul, Matrix.smul_mul, Matrix.mul_smul, Matrix.mul_smul, Matrix.add_mul, Matrix.mul_add]
  congr 2
  · show ((p.xTimes τ)[i] : ℝ) = (r.xTimes τ)[i]
    simp only [hτ]
  · congr 1
    · show hamiltonian (p.drift.getD i 0) p.ctrl (u.getD i []) * emb l = emb l * hamiltonian (r.drift.getD i 0) r.ctrl (u.getD i [])
      have e1 : p.drift.getD i 0 = p.drift[i] := List.getD_eq_getElem _ _ i3
      have e2 : r.drift.getD i 0 = (p.drift[i]).submatrix l.get l.get := by
        rw [hp.drift, List.getD_eq_getElem _ _ (by simpa using i3), List.getElem_map]
      rw [e1, e2, hp.ctrl, hamiltonian_emb hs.distinct (hs.drift _ (List.getElem_mem i3)) hs.ctrl]
    · subst hH
      rw [Matrix.sum_mul, Matrix.mul_sum]
      refine Fintype.sum_equiv (finCongr (by simp)) _ _ fun j => ?_
      have e1 : z' (finCongr (by simp) j) ⟨i, i2⟩ = z j ⟨i, i1⟩ := hz j (finCongr (by simp) j) ⟨i, i1⟩ ⟨i, i2⟩ rfl rfl
      have e2 : hN[j] * emb l = emb l * (hN[j]).submatrix l.get l.get := closed_emb hs.distinct (hc _ (List.getElem_mem j.2))
      show ((z j ⟨i, i1⟩ : ℝ) : ℂ) • hN[j] * emb l =
        emb l * ((z' (finCongr (by simp) j) ⟨i, i2⟩ : ℝ) : ℂ) • (hN.map fun H => H.submatrix l.get l.get)[(j : Nat)]'(by simp)
      rw [e1, Matrix.smul_mul, Matrix.mul_smul, e2, List.getElem_map]
      rfl

theorem Without.finals [Fintype m] {l : List n} {p : SPar n m} {r : SPar (Fin l.length) k} {τ : List ℝ} {M : MC n m}
    {M' : MC (Fin l.length) k} (h : Without l p r τ M M') (S : Matrix m k ℂ) (hi : p.init * S = emb l * r.init) (u : Solver.Pulse) :
    noisyFinal p M.hNoise τ u 0 * S = emb l * noisyFinal r M'.hNoise τ u 0 ∧
    ∀ i : Nat, noisyFinal p M.hNoise τ u (traceOf _ _ M.samples i) * S = emb l * noisyFinal r M'.hNoise τ u (traceOf _ _ M'.samples i) := by
  refine ⟨?_, fun i => ?_⟩
  · exact noisyFinal_emb h.leaves h.stays S hi τ h.pulse.valid h.times M.hNoise M'.hNoise h.noise h.ops u 0 0 fun _ _ _ _ _ _ => rfl
  · refine noisyFinal_emb h.leaves h.stays S hi τ h.pulse.valid h.times M.hNoise M'.hNoise h.noise h.ops u _ _ fun j j' t t' hj ht => ?_
    show M'.samples.val j' i t' = M.samples.val j i t
    rw [h.samples, hj, ht]

theorem sub_of_emb {l : List n} (hl : l.Nodup) {X : Matrix n n ℂ} {Y : Matrix (Fin l.length) (Fin l.length) ℂ} (h : X * emb l = emb l * Y) :
    X.submatrix l.get l.get = Y := by
  have : (emb l)ᴴ * (X * emb l) = (emb l)ᴴ * (emb l * Y) := by rw [h]
  rw [← Matrix.mul_assoc, ← Matrix.mul_assoc, emb_isometry hl, Matrix.one_mul, emb_mul, mul_emb] at this
  exact this

/-! ## The property -/

/-- **C163** Noise infidelities with `computational_states` and those of the smaller system are the same. -/
theorem c163_infidelity (l : List n) (p : SPar n n) (r : SPar (Fin l.length) (Fin l.length)) (τ : List ℝ) (M : MC n n)
    (M' : MC (Fin l.length) (Fin l.length)) (h : Without l p r τ M M') (hi : Closed l (· ∈ l) p.init)
    (hi' : r.init = p.init.submatrix l.get l.get) (cl cl' : Closest) (T : Matrix (Fin l.length) (Fin l.length) ℂ) (mcu nse : Bool)
    (y u : Solver.Pulse) (hu : ampsOf p.cfg τ y = some u) (z : Solver.Pulse) (hu' : ampsOf r.cfg τ z = some u) (y' x y'' x' : Solver.Pulse) :
    mcCosts (n := Fin l.length) cl' none T mcu nse M' (r.xTimes τ) y'' x' u = mcCosts (n := n) cl (some l) T false nse M (p.xTimes τ) y' x u := by
  have g := h.given
  have g' := h.given'
  have a := h.pulse
  have b := h.pulse'
  rw [mcCosts_value p τ a.valid a.stable a.method a.expm a.times M g.base h.procs g.amp g.ops g.traces g.times cl
    (some l) T false nse y u y' x hu, mcCosts_value r τ b.valid b.stable b.method b.expm b.times M' g'.base h.procs' g'.amp g'.ops g'.traces
    g'.times cl' none T mcu nse z u y'' x' hu']
  obtain ⟨e0, hk⟩ := h.finals (emb l) (by rw [hi', closed_emb h.stays.distinct hi]) u
  have key : ∀ (f : Fin M.nTraces → ℝ) (f' : Fin M'.nTraces → ℝ), (∀ (k : Fin M'.nTraces) (hk : (k : Nat) < M.nTraces), f' k = f ⟨k, hk⟩) →
      (Except.ok ((∑ k : Fin M'.nTraces, f' k) / M'.nTraces) : Except PyErr ℝ) = .ok ((∑ k : Fin M.nTraces, f k) / M.nTraces) := by
    intro f f' hf
    have hs : ∑ k, f' k = ∑ k, f k := Fintype.sum_equiv (finCongr h.traces) _ _ fun k => hf k (lt_of_lt_of_eq k.2 h.traces)
    rw [hs, h.traces]
  refine key _ _ fun k hk' => ?_
  have d0 := sub_of_emb h.stays.distinct e0
  have d1 := sub_of_emb h.stays.distinct (hk k)
  unfold traceInfidelity
  rw [← d0, ← d1]
  cases nse <;> rfl

/-- **C163** The same for states. -/
theorem c163_states (l : List n) (p : SPar n (Fin 1)) (r : SPar (Fin l.length) (Fin 1)) (τ : List ℝ) (M : MC n (Fin 1))
    (M' : MC (Fin l.length) (Fin 1)) (h : Without l p r τ M M') (hi : Closed l (fun _ => True) p.init)
    (hi' : r.init = p.init.submatrix l.get id) (T : Matrix (Fin 1) (Fin l.length) ℂ) (b b' nse : Bool)
    (y u : Solver.Pulse) (hu : ampsOf p.cfg τ y = some u) (z : Solver.Pulse) (hu' : ampsOf r.cfg τ z = some u) (y' x y'' x' : Solver.Pulse) :
    mcStateCosts (n := Fin l.length) none T b' nse M' (r.xTimes τ) y'' x' u = mcStateCosts (n := n) (some l) T b nse M (p.xTimes τ) y' x u := by
  have g := h.given
  have g' := h.given'
  rw [mcStateCosts_value p τ _ h.pulse (some l) T b nse M g.base rfl h.procs g.amp g.ops g.traces g.times y u y' x hu,
    mcStateCosts_value r τ _ h.pulse' none T b' nse M' g'.base rfl h.procs' g'.amp g'.ops g'.traces g'.times z u y'' x' hu']
  obtain ⟨e0, hk⟩ := h.finals (1 : Matrix (Fin 1) (Fin 1) ℂ) (by
    rw [hi', Matrix.mul_one]; exact eq_emb_mul h.stays.distinct fun j hj b => hi b trivial j hj) u
  have key : ∀ (f : Fin M.nTraces → ℝ) (f' : Fin M'.nTraces → ℝ), (∀ (k : Fin M'.nTraces) (hk : (k : Nat) < M.nTraces), f' k = f ⟨k, hk⟩) →
      (Except.ok ((∑ k : Fin M'.nTraces, f' k) / M'.nTraces) : Except PyErr ℝ) = .ok ((∑ k : Fin M.nTraces, f k) / M.nTraces) := by
    intro f f' hf
    have hs : ∑ k, f' k = ∑ k, f k := Fintype.sum_equiv (finCongr h.traces) _ _ fun k => hf k (lt_of_lt_of_eq k.2 h.traces)
    rw [hs, h.traces]
  refine key _ _ fun k hk' => ?_
  have d0 : ∀ a, noisyFinal p M.hNoise τ u 0 (l.get a) 0 = noisyFinal r M'.hNoise τ u 0 a 0 := fun a => by
    rw [Matrix.mul_one] at e0
    rw [e0, emb_mul_in h.stays.distinct]
  have d1 : ∀ a, noisyFinal p M.hNoise τ u (traceOf _ _ M.samples k) (l.get a) 0 =
      noisyFinal r M'.hNoise τ u (traceOf _ _ M'.samples k) a 0 := fun a => by
    have := hk k
    rw [Matrix.mul_one] at this
    rw [this, emb_mul_in h.stays.distinct]
  unfold traceStateInfidelity
  refine congrArg (fun c : ℂ => 1 - ‖c‖ ^ 2) (Finset.sum_congr rfl fun a _ => ?_)
  show (if nse then star (noisyFinal r M'.hNoise τ u 0 a 0) else T 0 a) * noisyFinal r M'.hNoise τ u (traceOf _ _ M'.samples k) a 0 =
    (if nse then star (noisyFinal p M.hNoise τ u 0 (l.get a) 0) else T 0 a) * noisyFinal p M.hNoise τ u (traceOf _ _ M.samples k) (l.get a) 0
  cases nse
  · exact congrArg (T 0 a * ·) (d1 a).symm
  · exact congrArg₂ (fun c d : ℂ => star c * d) (d0 a).symm (d1 a).symm

/-- **C163** There is no leakage. -/
theorem c163_leakage (l : List n) (hne : l ≠ []) (p : SPar n n) (r : SPar (Fin l.length) (Fin l.length)) (τ : List ℝ) (M : MC n n)
    (M' : MC (Fin l.length) (Fin l.length)) (h : Without l p r τ M M') (hi : Closed l (· ∈ l) p.init)
    (hi' : r.init = p.init.submatrix l.get l.get) (hiu : p.init ∈ Matrix.unitaryGroup n ℂ) (_hK : 0 < M.nTraces)
    (y u : Solver.Pulse) (hu : ampsOf p.cfg τ y = some u) (y' x : Solver.Pulse) : mcLeakCosts l M (p.xTimes τ) y' x u = .ok 0 := by
  have g := h.given
  rw [mcLeakCosts_value p τ _ h.pulse l M g.base rfl h.procs g.amp g.ops g.traces g.times y u y' x hu]
  obtain ⟨-, hk⟩ := h.finals (emb l) (by rw [hi', closed_emb h.stays.distinct hi]) u
  have hz : ∀ k : Fin M.nTraces, traceLeakage l p M.hNoise τ u (traceOf _ _ M.samples k) = 0 := by
    intro k
    have hU := noisyFinal_unitary p M.hNoise τ h.pulse.valid h.pulse.drift h.pulse.ctrl h.pulse.noise hiu u (traceOf _ _ M.samples k)
    set U := noisyFinal p M.hNoise τ u (traceOf _ _ M.samples k) with hUdef
    have hsum : ∀ a : Fin l.length, ∑ b : Fin l.length, ‖U (l.get b) (l.get a)‖ ^ 2 = 1 := by
      intro a
      have h1 : (Uᴴ * U) (l.get a) (l.get a) = 1 := by
        have := Matrix.mem_unitaryGroup_iff'.mp hU
        rw [Matrix.star_eq_conjTranspose] at this
        rw [this, Matrix.one_apply_eq]
      have h2 : (∑ i, ‖U i (l.get a)‖ ^ 2 : ℝ) = 1 := by
        rw [Matrix.mul_apply] at h1
        have : ((∑ i, ‖U i (l.get a)‖ ^ 2 : ℝ) : ℂ) = 1 := by
          rw [← h1]
          push_cast
          refine Finset.sum_congr rfl fun i _ => ?_
          rw [Matrix.conjTranspose_apply, ← Complex.conj_mul']
          rfl
        exact_mod_cast this
      have h3 : ∀ i, i ∉ Finset.univ.image l.get → ‖U i (l.get a)‖ ^ 2 = 0 := by
        intro i hi
        have hil : i ∉ l := fun hm => by
          obtain ⟨b, rfl⟩ := List.get_of_mem hm
          exact hi (Finset.mem_image_of_mem _ (Finset.mem_univ b))
        have := congrFun (congrFun (hk k) i) a
        rw [mul_emb, emb_mul_out l _ hil] at this
        have h4 : U i (l.get a) = 0 := this
        rw [h4]
        simp
      rw [← h2, ← Finset.sum_subset (Finset.subset_univ (Finset.univ.image l.get)) fun i _ hi => h3 i hi,
        Finset.sum_image fun a _ b _ hab => List.nodup_iff_injective_get.mp h.stays.distinct hab]
    unfold traceLeakage
    rw [← hUdef, Finset.sum_congr rfl fun a _ => hsum a, Finset.sum_const, Finset.card_univ, Fintype.card_fin, nsmul_eq_mul, mul_one,
      div_self (by exact_mod_cast (List.length_pos_iff.mpr hne).ne'), sub_self]
  rw [Finset.sum_congr rfl fun k _ => hz k]
  simp

/-- **C163** The gradients are the same. -/
theorem c163_gradient (l : List n) (hne : l ≠ []) (p : SPar n n) (r : SPar (Fin l.length) (Fin l.length)) (τ : List ℝ) (M : MC n n)
    (M' : MC (Fin l.length) (Fin l.length)) (h : Without l p r τ M M') (hi : Closed l (· ∈ l) p.init)
    (hi' : r.init = p.init.submatrix l.get l.get) (happ : p.approx = .none) (hF : p.L.FrechetOk) (happ' : r.approx = .none)
    (hF' : r.L.FrechetOk) (hreach : ∀ U : Fin (p.xTimes τ).length → Fin p.ctrl.length → ℝ, ∃ y, ampsOf p.cfg τ y = some (rowsOf U))
    (hreach' : ∀ U : Fin (r.xTimes τ).length → Fin r.ctrl.length → ℝ, ∃ y, ampsOf r.cfg τ y = some (rowsOf U))
    (hp : M.procs = .int 1) (hp' : M'.procs = .int 1) (hK : 0 < M.nTraces) (cl cl' : Closest) (T : Matrix (Fin l.length) (Fin l.length) ℂ)
    (mcu nse : Bool) (y' x y'' x' : Solver.Pulse) (U : Fin (p.xTimes τ).length → Fin p.ctrl.length → ℝ) :
    ∃ g : Fin (p.xTimes τ).length → Fin p.ctrl.length → ℝ,
      mcGrad (n := n) cl (some l) T false nse M (p.xTimes τ) y' x (rowsOf U) = .ok (rowsOf g) ∧
      mcGrad (n := Fin l.length) cl' none T mcu nse M' (r.xTimes τ) y'' x' (rowsOf U) = .ok (rowsOf g) := by
  have g := h.given
  have g' := h.given'
  have a := h.pulse
  have q := h.pulse'
  have hN : (r.xTimes τ).length = (p.xTimes τ).length := by rw [h.times]
  have hC : r.ctrl.length = p.ctrl.length := by rw [h.leaves.ctrl, List.length_map]
  obtain ⟨b, b1, b2, L, b3, b4⟩ := c93_noise_total p τ a.valid a.stable a.method happ a.expm hF a.times hreach M
    ⟨g.base, hp, g.amp, g.ops, g.traces, g.times, hK⟩ cl (some l) (by simpa using hne) false nse (Or.inl rfl) T y' x U
  have hU : rowsOf (fun t c => U (Fin.cast hN t) (Fin.cast hC c)) = rowsOf U := by
    have key : ∀ {N C N' C' : Nat} (h1 : N' = N) (h2 : C' = C) (U : Fin N → Fin C → ℝ),
        rowsOf (fun t c => U (Fin.cast h1 t) (Fin.cast h2 c)) = rowsOf U := by
      intro N C N' C' h1 h2 U
      subst h1 h2
      rfl
    exact key hN hC U
  obtain ⟨d, d1, d2, L', d3, d4⟩ := c93_noise_total r τ q.valid q.stable q.method happ' q.expm hF' q.times hreach' M'
    ⟨g'.base, hp', g'.amp, g'.ops, g'.traces, g'.times, by rw [h.traces]; exact hK⟩ cl' none (by simp) mcu nse (Or.inr rfl) T y'' x'
    (fun t c => U (Fin.cast hN t) (Fin.cast hC c))
  refine ⟨b, b1, ?_⟩
  rw [← hU, d1]
  refine congrArg Except.ok (grad_transport hN hC (fun A A' hA => ?_) hU b3 d3 b4 d4)
  obtain ⟨y, hy⟩ := hreach A
  obtain ⟨z, hz⟩ := hreach' A'
  have := c163_infidelity l p r τ M M' h hi hi' cl cl' T mcu nse y (rowsOf A) hy z (by rw [← hA]; exact hz) y' x y'' x'
  rw [b2, ← hA, d2] at this
  rw [← hA]
  exact Except.ok.inj this

/-! ## Cases -/

namespace Ex163
open Ex144

/-- Noise of the energies and of the drive; the level in the middle has its own noise. -/
def shift : Matrix (Fin 3) (Fin 3) ℂ := !![1, 0, 0; 0, 4, 0; 0, 0, -1]

noncomputable def big (L : Lapack (Fin 3)) : MC (Fin 3) (Fin 3) :=
  ⟨(large L drive).cfg, [shift, drive], .int 1, none, 2, ⟨2, 2, 4, fun j k t => j + 2 * k - t⟩⟩

noncomputable def less (L : Lapack (Fin 2)) : MC (Fin 2) (Fin 2) :=
  ⟨(small L).cfg, [!![-1, 0; 0, 1], !![0, 1; 1, 0]], .int 1, none, 2, ⟨2, 2, 4, fun j k t => j + 2 * k - t⟩⟩

theorem ops : [!![-1, 0; 0, 1], (!![0, 1; 1, 0] : Matrix (Fin 2) (Fin 2) ℂ)] =
    [shift, drive].map fun H => H.submatrix [2, 0].get [2, 0].get := by
  have h1 : shift.submatrix [2, 0].get [2, 0].get = !![-1, 0; 0, 1] := by
    ext i j
    fin_cases i <;> fin_cases j <;> rfl
  have h2 : drive.submatrix [2, 0].get [2, 0].get = !![0, 1; 1, 0] := sub_eq.2.1
  rw [List.map_cons, List.map_cons, List.map_nil, h1, h2]

theorem noise_herm : ∀ H ∈ [shift, drive], H.IsHermitian := by
  intro H hH
  simp only [List.mem_cons, List.not_mem_nil, or_false] at hH
  rcases hH with rfl | rfl <;> ext i j <;> fin_cases i <;> fin_cases j <;> simp [shift, drive]

theorem without {L : Lapack (Fin 3)} {L' : Lapack (Fin 2)} (hE : L.ExpmOk) (hE' : L'.ExpmOk) :
    Without [2, 0] (large L drive) (small L') [1, 1, 1, 1] (big L) (less L') where
  leaves := leaves L L' drive (Or.inl rfl)
  stays := stays L
  noise := by
    intro H hH i hi j hj
    simp only [big, List.mem_cons, List.not_mem_nil, or_false] at hH
    rcases hH with rfl | rfl <;> fin_cases i <;> fin_cases j <;> simp_all [shift, drive]
  times := rfl
  pulse := ⟨⟨by simp [large], rfl, by simp [large]⟩, Or.inl ⟨rfl, rfl⟩, rfl, hE, by simp [large], (herm L drive (Or.inl rfl)).1,
    (herm L drive (Or.inl rfl)).2, noise_herm⟩
  pulse' := by
    refine ⟨⟨by simp [small], rfl, by simp [small]⟩, Or.inl ⟨rfl, rfl⟩, rfl, hE', by simp [small], fun H hH => ?_, fun H hH => ?_, fun H hH => ?_⟩
    · obtain ⟨K, hK, rfl⟩ := List.mem_map.mp ((leaves L L' drive (Or.inl rfl)).drift ▸ hH)
      exact ((herm L drive (Or.inl rfl)).1 K hK).submatrix _
    · obtain ⟨K, hK, rfl⟩ := List.mem_map.mp ((leaves L L' drive (Or.inl rfl)).ctrl ▸ hH)
      exact ((herm L drive (Or.inl rfl)).2 K hK).submatrix _
    · obtain ⟨K, hK, rfl⟩ := List.mem_map.mp (ops ▸ (show H ∈ [!![-1, 0; 0, 1], (!![0, 1; 1, 0] : Matrix (Fin 2) (Fin 2) ℂ)] from hH))
      exact (noise_herm K hK).submatrix _
  given := ⟨rfl, rfl, rfl, rfl, rfl⟩
  given' := ⟨rfl, rfl, rfl, rfl, rfl⟩
  procs := Or.inl rfl
  procs' := Or.inl rfl
  ops := ops
  traces := rfl
  samples := rfl

theorem amps (L : Lapack (Fin 3)) (y : Solver.Pulse) (hl : y.length = 4) (hr : ∀ row ∈ y, row.length = 2) :
    ampsOf (large L drive).cfg [1, 1, 1, 1] y = some y :=
  ampsOf_simple L .frechet true .none 1 _ _ _ y (by rintro rfl; simp at hl) hl hr

theorem amps' (L : Lapack (Fin 2)) (y : Solver.Pulse) (hl : y.length = 4) (hr : ∀ row ∈ y, row.length = 2) :
    ampsOf (small L).cfg [1, 1, 1, 1] y = some y :=
  ampsOf_simple L .frechet true .none 1 _ _ _ y (by rintro rfl; simp at hl) hl hr

/-- `c163_infidelity`, `c163_leakage` and `c163_gradient` apply. -/
example : ∃ (L : Lapack (Fin 3)) (L' : Lapack (Fin 2)), ∀ (cl cl' : Closest) (T : Matrix (Fin 2) (Fin 2) ℂ) (nse : Bool) (U : Fin 4 → Fin 2 → ℝ),
    mcCosts (n := Fin 2) cl' none T true nse (less L') [1, 1, 1, 1] [] [] [[1, 2], [3, 4], [5, 6], [7, 8]] =
      mcCosts (n := Fin 3) cl (some [2, 0]) T false nse (big L) [1, 1, 1, 1] [] [] [[1, 2], [3, 4], [5, 6], [7, 8]] ∧
    mcLeakCosts [2, 0] (big L) [1, 1, 1, 1] [] [] [[1, 2], [3, 4], [5, 6], [7, 8]] = .ok 0 ∧
    ∃ g : Fin 4 → Fin 2 → ℝ, mcGrad (n := Fin 3) cl (some [2, 0]) T false nse (big L) [1, 1, 1, 1] [] [] (rowsOf U) = .ok (rowsOf g) ∧
      mcGrad (n := Fin 2) cl' none T true nse (less L') [1, 1, 1, 1] [] [] (rowsOf U) = .ok (rowsOf g) := by
  obtain ⟨L, -, -, hE, hF⟩ := lapack_exists (Fin 3)
  obtain ⟨L', -, -, hE', hF'⟩ := lapack_exists (Fin 2)
  refine ⟨L, L', fun cl cl' T nse U => ⟨?_, ?_, ?_⟩⟩
  · exact c163_infidelity [2, 0] (large L drive) (small L') [1, 1, 1, 1] (big L) (less L') (without hE hE') (closed_one _) sub_one cl cl' T true nse
      _ _ (amps L [[1, 2], [3, 4], [5, 6], [7, 8]] rfl (by simp)) _ (amps' L' [[1, 2], [3, 4], [5, 6], [7, 8]] rfl (by simp)) [] [] [] []
  · exact c163_leakage [2, 0] (by simp) (large L drive) (small L') [1, 1, 1, 1] (big L) (less L') (without hE hE') (closed_one _) sub_one
      (one_mem _) (by show 0 < 2; norm_num) _ _ (amps L [[1, 2], [3, 4], [5, 6], [7, 8]] rfl (by simp)) [] []
  · exact c163_gradient [2, 0] (by simp) (large L drive) (small L') [1, 1, 1, 1] (big L) (less L') (without hE hE') (closed_one _) sub_one rfl hF
      rfl hF' (fun V => ⟨rowsOf V, amps L _ (rowsOf_shape V).1 (rowsOf_shape V).2⟩)
      (fun V => ⟨rowsOf V, amps' L' _ (rowsOf_shape V).1 (rowsOf_shape V).2⟩) rfl rfl (by show 0 < 2; norm_num) cl cl' T true nse [] [] [] [] U

/-- The same system prepared in the last level. -/
noncomputable def bigState (L : Lapack (Fin 3)) : SPar (Fin 3) (Fin 1) :=
  ⟨L, .frechet, true, true, .none, !![0; 0; 1], List.replicate 4 drift, [drive, phase], idTf, id, idAmp⟩

noncomputable def lessState (L : Lapack (Fin 2)) : SPar (Fin 2) (Fin 1) :=
  ⟨L, .frechet, true, true, .none, !![1; 0], List.replicate 4 !![2, 0; 0, 1], [!![0, 1; 1, 0], !![3, Complex.I; -Complex.I, 0]], idTf, id, idAmp⟩

noncomputable def bigMc (L : Lapack (Fin 3)) : MC (Fin 3) (Fin 1) := ⟨(bigState L).cfg, [shift, drive], .int 1, none, 2, (big L).samples⟩

noncomputable def lessMc (L : Lapack (Fin 2)) : MC (Fin 2) (Fin 1) :=
  ⟨(lessState L).cfg, [!![-1, 0; 0, 1], !![0, 1; 1, 0]], .int 1, none, 2, (less L).samples⟩

/-- `c163_states` applies. -/
example : ∃ (L : Lapack (Fin 3)) (L' : Lapack (Fin 2)), ∀ (T : Matrix (Fin 1) (Fin 2) ℂ) (nse : Bool),
    mcStateCosts (n := Fin 2) none T false nse (lessMc L') [1, 1, 1, 1] [] [] [[1, 2], [3, 4], [5, 6], [7, 8]] =
      mcStateCosts (n := Fin 3) (some [2, 0]) T true nse (bigMc L) [1, 1, 1, 1] [] [] [[1, 2], [3, 4], [5, 6], [7, 8]] := by
  obtain ⟨L, -, -, hE, hF⟩ := lapack_exists (Fin 3)
  obtain ⟨L', -, -, hE', hF'⟩ := lapack_exists (Fin 2)
  have h := without hE hE'
  have hw : Without [2, 0] (bigState L) (lessState L') [1, 1, 1, 1] (bigMc L) (lessMc L') :=
    ⟨⟨h.leaves.drift, h.leaves.ctrl⟩, ⟨h.stays.distinct, h.stays.drift, h.stays.ctrl⟩, h.noise, rfl,
      ⟨⟨by simp [bigState], rfl, by simp [bigState]⟩, Or.inl ⟨rfl, rfl⟩, rfl, hE, by simp [bigState], h.pulse.drift, h.pulse.ctrl, h.pulse.noise⟩,
      ⟨⟨by simp [lessState], rfl, by simp [lessState]⟩, Or.inl ⟨rfl, rfl⟩, rfl, hE', by simp [lessState], h.pulse'.drift, h.pulse'.ctrl,
        h.pulse'.noise⟩, ⟨rfl, rfl, rfl, rfl, rfl⟩, ⟨rfl, rfl, rfl, rfl, rfl⟩, Or.inl rfl, Or.inl rfl, ops, rfl, rfl⟩
  have a1 : ampsOf (bigState L).cfg [1, 1, 1, 1] [[1, 2], [3, 4], [5, 6], [7, 8]] = some [[1, 2], [3, 4], [5, 6], [7, 8]] :=
    amps L [[1, 2], [3, 4], [5, 6], [7, 8]] rfl (by simp)
  have a2 : ampsOf (lessState L').cfg [1, 1, 1, 1] [[1, 2], [3, 4], [5, 6], [7, 8]] = some [[1, 2], [3, 4], [5, 6], [7, 8]] :=
    amps' L' [[1, 2], [3, 4], [5, 6], [7, 8]] rfl (by simp)
  refine ⟨L, L', fun T nse => ?_⟩
  refine c163_states [2, 0] (bigState L) (lessState L') [1, 1, 1, 1] (bigMc L) (lessMc L') hw ?_ ?_ T true false nse _ _ a1 _ a2 [] [] [] []
  · intro i _ j hj
    fin_cases j <;> simp_all [bigState]
  · ext i j
    fin_cases i <;> fin_cases j <;> rfl

end Ex163

end Verif.Sim
