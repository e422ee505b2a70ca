import Verif.Sim.Conserved
import Verif.Sim.ConjugationOpen

/-!
# C178: operations out of reach with noise and dissipation

A unitary that commutes with all Hamiltonians and all noise or Lindblad operators and with the target only up to a factor: the
infidelity is one for every pulse and its gradient zero.  `LindbladSolver` (solver_algorithms.py:1760-2160), `OperationInfidelity` for
super operators (cost_functions.py:1171-1316) and `OperationNoiseInfidelity` (cost_functions.py:1319-1517).
-/

namespace Verif.Sim
open Verif Verif.Transfer Verif.Operator Verif.Solver Verif.Cost Matrix
open scoped Kronecker

variable {n m : Type} [Fintype n] [DecidableEq n]

/-! ## Specification -/

/-- The dissipation `E` consists of Lindblad operators which commute with `V`, with any rates. -/
def Respects {a b : Type} (V : Matrix n n ℂ) (E : a → b → Sup n) : Prop :=
  ∀ t v, ∃ ws : List (ℝ × Matrix n n ℂ), E t v = (ws.map fun w => ((w.1 : ℝ) : ℂ) • dissOf w.2).sum ∧ ∀ w ∈ ws, V * w.2 = w.2 * V

/-! ## Lemmas -/

theorem left_unitary {V : Matrix n n ℂ} (hV : V ∈ Matrix.unitaryGroup n ℂ) : (1 : Matrix n n ℂ) ⊗ₖ V ∈ Matrix.unitaryGroup (n × n) ℂ := by
  rw [Matrix.mem_unitaryGroup_iff, Matrix.star_eq_conjTranspose, Matrix.conjTranspose_kronecker, ← Matrix.mul_kronecker_mul,
    Matrix.conjTranspose_one, Matrix.one_mul, show V * Vᴴ = 1 from Matrix.mem_unitaryGroup_iff.mp hV, Matrix.one_kronecker_one]

theorem left_commute (V A B : Matrix n n ℂ) (h : V * B = B * V) : Commute ((1 : Matrix n n ℂ) ⊗ₖ V) (A ⊗ₖ B) := by
  show _ * _ = _ * _
  rw [← Matrix.mul_kronecker_mul, ← Matrix.mul_kronecker_mul, h, Matrix.one_mul, Matrix.mul_one]

/-- A unitary which commutes with an operator commutes with its adjoint. -/
theorem commute_adjoint {V L : Matrix n n ℂ} (hV : V ∈ Matrix.unitaryGroup n ℂ) (h : V * L = L * V) : V * Lᴴ = Lᴴ * V := by
  have h1 : V * Vᴴ = 1 := Matrix.mem_unitaryGroup_iff.mp hV
  have h2 : Vᴴ * V = 1 := Matrix.mem_unitaryGroup_iff'.mp hV
  have h3 : Lᴴ * Vᴴ = Vᴴ * Lᴴ := by
    have := congrArg Matrix.conjTranspose h
    rwa [Matrix.conjTranspose_mul, Matrix.conjTranspose_mul] at this
  calc V * Lᴴ = V * (Lᴴ * Vᴴ) * V := by rw [Matrix.mul_assoc, Matrix.mul_assoc, h2, Matrix.mul_one]
    _ = Lᴴ * V := by rw [h3, ← Matrix.mul_assoc, h1, Matrix.one_mul]

theorem diss_commute {V L : Matrix n n ℂ} (hV : V ∈ Matrix.unitaryGroup n ℂ) (h : V * L = L * V) :
    Commute ((1 : Matrix n n ℂ) ⊗ₖ V) (dissOf L) := by
  unfold dissOf
  refine ((left_commute V _ _ h).sub_right ((left_commute V _ _ ?_).smul_right _)).sub_right ((left_commute V _ _ ?_).smul_right _)
  · rw [← Matrix.mul_assoc, commute_adjoint hV h, Matrix.mul_assoc, h, Matrix.mul_assoc]
  · rw [Matrix.mul_one, Matrix.one_mul]

theorem Respects.commute {a b : Type} {V : Matrix n n ℂ} (hV : V ∈ Matrix.unitaryGroup n ℂ) {E : a → b → Sup n} (h : Respects V E) (t : a) (v : b) :
    Commute ((1 : Matrix n n ℂ) ⊗ₖ V) (E t v) := by
  obtain ⟨ws, e, hw⟩ := h t v
  rw [e]
  clear e
  induction ws with
  | nil => exact Commute.zero_right _
  | cons w ws ih =>
    rw [List.map_cons, List.sum_cons]
    exact ((diss_commute hV (hw w (by simp))).smul_right _).add_right (ih fun x hx => hw x (by simp [hx]))

theorem stepGen_commute {p : LPar n} {N : Nat} (hN : p.drift.length = N) {V : Matrix n n ℂ} (hV : V ∈ Matrix.unitaryGroup n ℂ)
    (hd : ∀ H ∈ p.drift, V * H = H * V) (hc : ∀ H ∈ p.ctrl, V * H = H * V) {E : Fin N → (Fin p.ctrl.length → ℝ) → Sup n} (hE : Respects V E)
    (t : Fin N) (v : Fin p.ctrl.length → ℝ) : Commute ((1 : Matrix n n ℂ) ⊗ₖ V) (Cost.stepGen p E t v) := by
  unfold Cost.stepGen supGen
  refine ((left_commute V _ _ ?_).add_right (left_commute V _ _ ?_)).add_right (hE.commute hV t v)
  · have h1 : Commute V (p.drift.getD t 0) := by
      have : (t : Nat) < p.drift.length := by rw [hN]; exact t.2
      rw [List.getD_eq_getElem _ _ this]
      exact hd _ (List.getElem_mem _)
    have h2 : Commute V (∑ k, (v k : ℂ) • p.ctrl.get k) :=
      Commute.sum_right _ _ _ fun k _ => (show Commute V (p.ctrl.get k) from hc _ (List.get_mem _ _)).smul_right _
    exact ((h1.add_right h2).smul_right _).eq
  · rw [Matrix.mul_one, Matrix.one_mul]

theorem lindFinal_commute {p : LPar n} {τ : List ℝ} (hN : p.drift.length = τ.length) (hi : p.init = 1) {V : Matrix n n ℂ}
    (hV : V ∈ Matrix.unitaryGroup n ℂ) (hd : ∀ H ∈ p.drift, V * H = H * V) (hc : ∀ H ∈ p.ctrl, V * H = H * V)
    {E : Fin τ.length → (Fin p.ctrl.length → ℝ) → Sup n} (hE : Respects V E) (U : Fin τ.length → Fin p.ctrl.length → ℝ) :
    ((1 : Matrix n n ℂ) ⊗ₖ V) * lindFinal p τ E U = lindFinal p τ E U * ((1 : Matrix n n ℂ) ⊗ₖ V) := by
  unfold lindFinal
  refine foldl_commute (fun P hP => ?_) (by rw [hi, Matrix.mul_one, Matrix.one_mul])
  obtain ⟨t, rfl⟩ := (List.mem_ofFn' _ _).mp hP
  exact (exp_intertwine (((stepGen_commute hN hV hd hc hE t (U t)).smul_right _).symm.eq)).symm

theorem lift_trace (cs : Option (List n)) (T : Matrix (CompIdx cs) (CompIdx cs) ℂ) (U : Matrix n n ℂ) :
    ((liftTarget cs T)ᴴ * U).trace = (Tᴴ * U.submatrix (sel cs) (sel cs)).trace := by
  rw [← inclusion_submatrix]
  unfold liftTarget
  rw [Matrix.conjTranspose_mul, Matrix.conjTranspose_mul, Matrix.conjTranspose_conjTranspose, Matrix.mul_assoc, Matrix.trace_mul_comm]
  simp only [Matrix.mul_assoc]

theorem lift_none (T : Matrix n n ℂ) : liftTarget (n := n) none T = T := by
  refine Matrix.conjTranspose_injective (Matrix.ext_iff_trace_mul_right.mpr fun U => ?_)
  exact lift_trace (n := n) none T U

/-- The fidelity of a super operator with the target extended to the whole space. -/
theorem entFidSup_lift (cs : Option (List n)) (hcs : ∀ l, cs = some l → l.Nodup) (T : Matrix (CompIdx cs) (CompIdx cs) ℂ) (P : Sup n) :
    entFidSup cs T P = ((unitarySup (liftTarget cs T))ᴴ * P).trace.re / dim cs / dim cs := by
  have hU : ∀ A : Matrix n n ℂ, (unitarySup A)ᴴ = unitarySup Aᴴ := fun A => Matrix.conjTranspose_kronecker _ _
  rw [hU]
  cases cs with
  | none =>
    have h : liftTarget (n := n) none T = T := lift_none T
    rw [h]
    rfl
  | some l =>
    have hM : projComp l * fillTarget l Tᴴ = (liftTarget (some l) T)ᴴ := by
      refine Matrix.ext_iff_trace_mul_right.mpr fun U => ?_
      exact (trace_fillTarget l (hcs l rfl) _ U).trans (lift_trace (some l) T U).symm
    show (unitarySup (projComp l) * unitarySup (fillTarget l Tᴴ) * P).trace.re / dim (some l) / dim (some l) = _
    rw [← unitarySup_mul, hM]

theorem entFidSup_plateau (cs : Option (List n)) (hcs : ∀ l, cs = some l → l.Nodup) (T : Matrix (CompIdx cs) (CompIdx cs) ℂ) {V : Matrix n n ℂ}
    (hV : V ∈ Matrix.unitaryGroup n ℂ) {P : Sup n} (hP : ((1 : Matrix n n ℂ) ⊗ₖ V) * P = P * ((1 : Matrix n n ℂ) ⊗ₖ V)) {ω : ℂ} (hω : ω ≠ 1)
    (hT : liftTarget cs T * V = ω • (V * liftTarget cs T)) : entFidSup cs T P = 0 := by
  rw [entFidSup_lift cs hcs]
  have h : unitarySup (liftTarget cs T) * ((1 : Matrix n n ℂ) ⊗ₖ V) = ω • (((1 : Matrix n n ℂ) ⊗ₖ V) * unitarySup (liftTarget cs T)) := by
    unfold unitarySup
    rw [← Matrix.mul_kronecker_mul, ← Matrix.mul_kronecker_mul, hT, Matrix.mul_one, Matrix.one_mul, Matrix.kronecker_smul]
  rw [overlap_zero (left_unitary hV) hP hω h]
  simp

/-- A gradient of a constant. -/
theorem gradient_constant {N C : Nat} {F : (Fin N → Fin C → ℝ) → ℝ} {a : ℝ} (hF : ∀ W, F W = a) {U : Fin N → Fin C → ℝ}
    {L : (Fin N → Fin C → ℝ) →L[ℝ] ℝ} (hL : HasFDerivAt F L U) {g : Fin N → Fin C → ℝ} (hg : ∀ W, L W = ∑ t, ∑ c, g t c * W t c) :
    rowsOf g = zeros N C := by
  have h0 : L = 0 := by
    rw [show F = fun _ => a from funext hF] at hL
    exact hL.unique (hasFDerivAt_const a U)
  have h : g = fun _ _ => 0 := by
    funext t c
    have e := hg (fun s d => if s = t ∧ d = c then 1 else 0)
    rw [h0, Finset.sum_eq_single t (fun s _ hs => Finset.sum_eq_zero fun d _ => by simp [hs]) (by simp),
      Finset.sum_eq_single c (fun d _ hd => by simp [hd]) (by simp)] at e
    simpa using e.symm
  rw [h]
  unfold rowsOf zeros
  simp [List.ofFn_const]

/-! ## The property -/

/-- **C178** Operations out of reach of an open system. If a unitary `V` commutes with all Hamiltonians and Lindblad operators and the
target does so only up to a factor other than one, the infidelity is one for every pulse, whatever the rates, and its gradient zero. -/
theorem c178_open (p : LPar n) (hi : p.init = 1) (τ : List ℝ) (h : LExact p τ) (E : Fin τ.length → (Fin p.ctrl.length → ℝ) → Sup n)
    (hE : GivenDiss p τ.length E) (V : Matrix n n ℂ) (hV : V ∈ Matrix.unitaryGroup n ℂ) (hd : ∀ H ∈ p.drift, V * H = H * V)
    (hc : ∀ H ∈ p.ctrl, V * H = H * V) (hr : Respects V E) (cs : Option (List n)) (hcs : ∀ l, cs = some l → l.Nodup)
    (T : Matrix (CompIdx cs) (CompIdx cs) ℂ) (ω : ℂ) (hω : ω ≠ 1) (hT : liftTarget cs T * V = ω • (V * liftTarget cs T))
    (U : Fin τ.length → Fin p.ctrl.length → ℝ) (x : Solver.Pulse) :
    lindCosts cs T p τ (rowsOf U) x = .ok 1 ∧ lindGrad cs T p τ (rowsOf U) x = .ok (zeros τ.length p.ctrl.length) := by
  obtain ⟨g, g1, g2, L, g3, g4⟩ := c98_total p τ h E hE cs T U x
  have hz : ∀ W, (1 : ℝ) - entFidSup cs T (lindFinal p τ E W) = 1 := fun W => by
    rw [entFidSup_plateau cs hcs T hV (lindFinal_commute h.drift hi hV hd hc hr W) hω hT, sub_zero]
  exact ⟨(g2 U x).trans (congrArg Except.ok (hz U)), g1.trans (congrArg Except.ok (gradient_constant hz g3 g4))⟩

/-- **C178** Operations out of reach of a system with noise which commutes with `V`: the noise infidelity is one and its gradient
zero. -/
theorem c178_noise (p : SPar n n) (hi : p.init = 1) (τ : List ℝ) (M : MC n n) (h : NoisyPulse p τ M.hNoise) (g : Given M p τ)
    (happ : p.approx = .none) (hF : p.L.FrechetOk)
    (hreach : ∀ U : Fin (p.xTimes τ).length → Fin p.ctrl.length → ℝ, ∃ y, ampsOf p.cfg τ y = some (rowsOf U))
    (hp : M.procs = .int 1) (hK : 0 < M.nTraces) (V : Matrix n n ℂ) (hV : V ∈ Matrix.unitaryGroup n ℂ) (hQ : Conserves V p)
    (hq : ∀ H ∈ M.hNoise, V * H = H * V) (cl : Closest) (cs : Option (List n)) (hcs : cs ≠ some []) (mcu : Bool) (hm : mcu = false ∨ cs = none)
    (T : Matrix (CompIdx cs) (CompIdx cs) ℂ) (ω : ℂ) (hω : ω ≠ 1) (hT : liftTarget cs T * V = ω • (V * liftTarget cs T))
    (y' x : Solver.Pulse) (U : Fin (p.xTimes τ).length → Fin p.ctrl.length → ℝ) :
    mcCosts cl cs T mcu false M (p.xTimes τ) y' x (rowsOf U) = .ok 1 ∧
      mcGrad cl cs T mcu false M (p.xTimes τ) y' x (rowsOf U) = .ok (zeros (p.xTimes τ).length p.ctrl.length) := by
  have hcost : ∀ W : Fin (p.xTimes τ).length → Fin p.ctrl.length → ℝ, mcCosts cl cs T mcu false M (p.xTimes τ) y' x (rowsOf W) = .ok 1 := by
    intro W
    obtain ⟨y, hy⟩ := hreach W
    rw [mcCosts_value p τ h.valid h.stable h.method h.expm h.times M g.base (Or.inl hp) g.amp g.ops g.traces g.times cl cs T mcu false y _ y' x hy]
    rw [Finset.sum_congr rfl fun k _ => ?_, Finset.sum_const, Finset.card_univ, Fintype.card_fin, nsmul_eq_mul, mul_one,
      div_self (by exact_mod_cast hK.ne')]
    have hc := noisyFinal_commute h.valid hQ hq (A := V) (by rw [hi, Matrix.mul_one, Matrix.one_mul]) (rowsOf W) (traceOf _ _ M.samples k)
    unfold traceInfidelity
    rw [if_neg (by simp), entFid_zero cl cs mcu hm T hV hc hω hT, sub_zero]
  obtain ⟨b, b1, b2, L, b3, b4⟩ := c93_noise_total p τ h.valid h.stable h.method happ h.expm hF h.times hreach M
    ⟨g.base, hp, g.amp, g.ops, g.traces, g.times, hK⟩ cl cs hcs mcu false hm T y' x U
  refine ⟨hcost U, b1.trans (congrArg Except.ok (gradient_constant (a := 1) (fun W => ?_) b3 b4))⟩
  have := hcost W
  rw [b2 W] at this
  exact Except.ok.inj this

/-! ## Cases -/

namespace Ex178

/-- A dephasing qubit whose drift, control and Lindblad operators are diagonal. -/
noncomputable def par (L : Lapack (Fin 2 × Fin 2)) : LPar (Fin 2) :=
  ⟨L, .frechet, false, 1, [!![1, 0; 0, -1], 0, !![1, 0; 0, 3]], [!![1, 0; 0, -1]],
    ⟨none, some [!![1, 0; 0, -1], !![1, 0; 0, 0]], none, none, none, none⟩⟩

/-- The NOT gate is out of reach. -/
example (U : Fin 3 → Fin 1 → ℝ) : ∃ L : Lapack (Fin 2 × Fin 2),
    lindCosts none (!![0, 1; 1, 0] : Matrix (Fin 2) (Fin 2) ℂ) (par L) [1, 2, 3] (rowsOf U) [] = .ok 1 ∧
    lindGrad none (!![0, 1; 1, 0] : Matrix (Fin 2) (Fin 2) ℂ) (par L) [1, 2, 3] (rowsOf U) [] = .ok [[0], [0], [0]] := by
  obtain ⟨L, -, -, hE, hF⟩ := lapack_exists (Fin 2 × Fin 2)
  have hx : LExact (par L) [1, 2, 3] := by
    refine ⟨by simp [par], rfl, by simp, rfl, hE, hF, ?_⟩
    intro H hH
    simp only [par, List.mem_cons, List.not_mem_nil, or_false] at hH
    subst hH
    ext i j
    fin_cases i <;> fin_cases j <;> simp
  have hg : GivenDiss (par L) 3 (fun _ _ => (([!![1, 0; 0, -1], !![1, 0; 0, 0]] : List (Matrix (Fin 2) (Fin 2) ℂ)).map dissOf).sum) :=
    .lindblad _ (by simp) none rfl rfl
  have hdiag : ∀ a b c d : ℂ, (!![a, 0; 0, b] : Matrix (Fin 2) (Fin 2) ℂ) * !![c, 0; 0, d] = !![c, 0; 0, d] * !![a, 0; 0, b] := by
    intro a b c d
    simp [mul_comm]
  refine ⟨L, c178_open (par L) rfl [1, 2, 3] hx _ hg !![1, 0; 0, -1] ?_ ?_ ?_ ?_ none (by simp) _ (-1) (by norm_num) ?_ U []⟩
  · rw [Matrix.mem_unitaryGroup_iff]
    ext i j
    fin_cases i <;> fin_cases j <;> simp [Matrix.mul_apply, Fin.sum_univ_two]
  · intro H hH
    simp only [par, List.mem_cons, List.not_mem_nil, or_false] at hH
    rcases hH with rfl | rfl | rfl
    · rfl
    · simp
    · exact hdiag _ _ _ _
  · intro H hH
    simp only [par, List.mem_cons, List.not_mem_nil, or_false] at hH
    subst hH
    rfl
  · intro t v
    refine ⟨[(1, !![1, 0; 0, -1]), (1, !![1, 0; 0, 0])], by simp, ?_⟩
    intro w hw
    simp only [List.mem_cons, List.not_mem_nil, or_false] at hw
    rcases hw with rfl | rfl
    · rfl
    · exact hdiag _ _ _ _
  · have hl : liftTarget (n := Fin 2) none !![0, 1; 1, 0] = !![0, 1; 1, 0] := lift_none _
    rw [hl]
    ext i j
    fin_cases i <;> fin_cases j <;> simp

/-- A qubit with diagonal Hamiltonians and noise. -/
noncomputable def noisyPar (L : Lapack (Fin 2)) : SPar (Fin 2) (Fin 2) :=
  { qubitPar L .none true with drift := [!![1, 0; 0, -1], 0, !![1, 0; 0, 3]], ctrl := [!![1, 0; 0, -1]] }

/-- The NOT gate is out of reach with four traces of any noise of the splitting. -/
example (v : Nat → Nat → Nat → ℝ) (U : Fin 3 → Fin 1 → ℝ) (cl : Closest) : ∃ L : Lapack (Fin 2),
    let M : MC (Fin 2) (Fin 2) := ⟨(noisyPar L).cfg, [!![1, 0; 0, -1]], .int 1, none, 4, ⟨1, 4, 3, v⟩⟩
    mcCosts (n := Fin 2) cl none !![0, 1; 1, 0] true false M [1, 2, 3] [] [] (rowsOf U) = .ok 1 ∧
    mcGrad (n := Fin 2) cl none !![0, 1; 1, 0] true false M [1, 2, 3] [] [] (rowsOf U) = .ok [[0], [0], [0]] := by
  obtain ⟨L, -, -, hE, hF⟩ := lapack_exists (Fin 2)
  refine ⟨L, ?_⟩
  intro M
  have hz : ∀ a b : ℝ, (!![(a : ℂ), 0; 0, (b : ℂ)] : Matrix (Fin 2) (Fin 2) ℂ).IsHermitian := by
    intro a b
    ext i j
    fin_cases i <;> fin_cases j <;> simp
  have hZ : (!![1, 0; 0, -1] : Matrix (Fin 2) (Fin 2) ℂ).IsHermitian := by simpa using hz 1 (-1)
  have hdr : ∀ H ∈ (noisyPar L).drift, H.IsHermitian ∧ !![1, 0; 0, -1] * H = H * !![1, 0; 0, -1] := by
    intro H hH
    simp only [noisyPar, List.mem_cons, List.not_mem_nil, or_false] at hH
    rcases hH with rfl | rfl | rfl
    · exact ⟨hZ, rfl⟩
    · simp [Matrix.isHermitian_zero]
    · exact ⟨by simpa using hz 1 3, by simp⟩
  have hct : ∀ H ∈ [(!![1, 0; 0, -1] : Matrix (Fin 2) (Fin 2) ℂ)], H.IsHermitian ∧ !![1, 0; 0, -1] * H = H * !![1, 0; 0, -1] := by
    intro H hH
    simp only [List.mem_cons, List.not_mem_nil, or_false] at hH
    subst hH
    exact ⟨hZ, rfl⟩
  have q := Ex161.pulse hE
  have hn : NoisyPulse (noisyPar L) [1, 2, 3] M.hNoise :=
    ⟨⟨by simp [noisyPar], rfl, q.valid.2.2⟩, Or.inl ⟨rfl, rfl⟩, rfl, hE, q.times, fun H hH => (hdr H hH).1, fun H hH => (hct H hH).1,
      fun H hH => (hct H hH).1⟩
  refine c178_noise (noisyPar L) rfl [1, 2, 3] M hn ⟨rfl, rfl, rfl, rfl, rfl⟩ rfl hF (fun V => ⟨rowsOf V, ?_⟩) rfl (by show 0 < 4; norm_num)
    !![1, 0; 0, -1] ?_ ⟨fun H hH => (hdr H hH).2, fun H hH => (hct H hH).2⟩ (fun H hH => (hct H hH).2) cl none (by simp) true (Or.inr rfl) _ (-1)
    (by norm_num) ?_ [] [] U
  · exact ampsOf_simple L .frechet true .none 1 _ _ _ _ (by intro e; have := (rowsOf_shape V).1; rw [e] at this; simp [noisyPar, qubitPar] at this)
      (rowsOf_shape V).1 (rowsOf_shape V).2
  · rw [Matrix.mem_unitaryGroup_iff]
    ext i j
    fin_cases i <;> fin_cases j <;> simp [Matrix.mul_apply, Fin.sum_univ_two]
  · have hl : liftTarget (n := Fin 2) none !![0, 1; 1, 0] = !![0, 1; 1, 0] := lift_none _
    rw [hl]
    ext i j
    fin_cases i <;> fin_cases j <;> simp

end Ex178

end Verif.Sim
