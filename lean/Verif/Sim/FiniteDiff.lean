import Verif.Sim.Schroed
import Verif.Sim.Numeric
import Verif.Cost.Smooth

/-!
# C121: finite differences are close to the gradient

`numeric_gradient` (simulator.py:338-390) of a simulator for the infidelity of a gate.
-/

namespace Verif.Sim
open Verif Verif.Transfer Verif.Operator Verif.Solver Verif.Cost Matrix

section
open scoped Matrix.Norms.L2Operator
variable {n : Type} [Fintype n] [DecidableEq n]

/-- A simulator for one closed system: the parameters are the amplitudes (identity transfer and amplitude functions), the only cost
function is `OperationInfidelity`. -/
noncomputable def gateSim (p : SPar n n) (τ : List ℝ) (tf : TF ℝ p.ctrl.length) (cl : Closest) (cs : Option (List n))
    (T : Matrix (CompIdx cs) (CompIdx cs) ℂ) (mcu : Bool) (label : String) (numeric : Bool) : Sim p.ctrl.length :=
  { solvers := [⟨p.ctrl.length, tf, .identity, τ.length, none, none⟩]
    costFuncs := [operationCost p τ cl cs T mcu 0 label]
    pulse := none, numTimes := none, numCtrl := none, numericJacobian := numeric }

/-- The amplitudes of a pulse. -/
def arrayOf {q : Nat} (N : Nat) (y : Pulse ℝ q) : Fin N → Fin q → ℝ := fun t => rowAt y t

theorem arrayOf_shift {q N : Nat} (y : Pulse ℝ q) (hy : y.length = N) (t : Fin N) (j : Fin q) (h : ℝ) :
    arrayOf N (shift y t j h) = arrayOf N y + h • unitAmp t j := by
  subst hy
  funext s k
  show rowAt (shift y t j h) s k = rowAt y s k + h * unitAmp t j s k
  rw [rowAt_shift y t j h s k s.2]
  unfold unitAmp
  by_cases h1 : s = t
  · subst h1
    by_cases h2 : k = j
    · subst h2; simp
    · simp [h2]
  · have h1' : ¬(s : Nat) = t := fun h => h1 (Fin.ext h)
    simp [h1, h1']

omit [Fintype n] [DecidableEq n] in
theorem gateSim_assembled (p : SPar n n) (τ : List ℝ) (tf : TF ℝ p.ctrl.length)
    (htf : (TF.identity (Base.init ℝ none 1)).setTimes τ = .ok tf) :
    Assembled (⟨p.ctrl.length, tf, .identity, τ.length, none, none⟩ : SolverObj p.ctrl.length) τ.length ∧
    ∃ b, tf = .identity b := by
  have h0 := htf
  simp only [TF.setTimes] at htf
  obtain ⟨b, hb, htf⟩ := TF.bind_ok htf
  simp only [pure, Except.pure, Except.ok.injEq] at htf
  subst htf
  obtain ⟨x, ps, pe, -, -, -, hs, -, -, hX⟩ := c01_grid_length (Base.init ℝ none 1) b τ hb
  simp only [Base.init, specPadding, Option.some.injEq, Prod.mk.injEq] at hs
  rw [← hs.1, ← hs.2] at hX
  refine ⟨⟨⟨_, τ, ?_, h0, rfl, ?_⟩, trivial, fun y h => by simp at h⟩, b, rfl⟩
  · simp [TF.Usable, Base.init]
  · simpa [TF.base, Base.init] using hX.symm

/-- **C121** (finite differences) For a closed system whose parameters are the amplitudes, `numeric_gradient` with the step width `ε`
differs from the analytic Jacobian by at most `2 (τ_t ‖H_j‖)² |ε|`, for forward and for symmetric differences; with
`numeric_jacobian=True` the optimiser thus gets the gradient up to `2 (τ_t ‖H_j‖)² 10⁻⁸` (in exact arithmetic). -/
theorem c121_numeric (p : SPar n n) (τ : List ℝ) (tf : TF ℝ p.ctrl.length)
    (htf : (TF.identity (Base.init ℝ none 1)).setTimes τ = .ok tf) (cl : Closest) (cs : Option (List n))
    (T : Matrix (CompIdx cs) (CompIdx cs) ℂ) (mcu : Bool) (label : String) (h : Exact p τ)
    (hs : NoisySystem p.bare τ [] cs T mcu false) (y : Pulse ℝ p.ctrl.length) (hy : y.length = τ.length) :
    ∃ J : List (List (Fin p.ctrl.length → ℝ)),
      (∃ sim', (gateSim p τ tf cl cs T mcu label false).wrappedJac (some y) = .ok (sim', J)) ∧
      (∀ ε ≠ 0, ∀ symmetric numeric, ∃ sim' J', (gateSim p τ tf cl cs T mcu label numeric).numericGradient (some y) ε symmetric =
          .ok (sim', J') ∧ J'.length = J.length ∧
        ∀ (t : Fin τ.length) (j : Fin p.ctrl.length), |(J'.getD t []).getD 0 0 j - (J.getD t []).getD 0 0 j| ≤
          2 * (|τ.get t| * ‖p.ctrl.get j‖) ^ 2 * |ε|) ∧
      ∃ sim' J', (gateSim p τ tf cl cs T mcu label true).wrappedJac (some y) = .ok (sim', J') ∧ J'.length = J.length ∧
        ∀ (t : Fin τ.length) (j : Fin p.ctrl.length), |(J'.getD t []).getD 0 0 j - (J.getD t []).getD 0 0 j| ≤
          2 * (|τ.get t| * ‖p.ctrl.get j‖) ^ 2 / 100000000 := by
  obtain ⟨hA, b, rfl⟩ := gateSim_assembled p τ tf htf
  have hcs : cs ≠ some [] := by
    rintro rfl
    exact (hs.states.some : Fin 0).elim0
  obtain ⟨I, g, hI, hsm⟩ : ∃ (I : (Fin τ.length → Fin p.ctrl.length → ℝ) → ℝ)
      (g : (Fin τ.length → Fin p.ctrl.length → ℝ) → Fin τ.length → Fin p.ctrl.length → ℝ),
      (∀ U s, Ready p.bare τ (rowsOf U) s → (costOn (opCosts cl cs T mcu) p.bare.cfg s).1 = .ok (I U)) ∧
      SmoothCost 4 (fun t c => |τ.get t| * ‖p.ctrl.get c‖) I g := by
    obtain ⟨I, g, hI, -, hsm⟩ := c121_operation p.bare τ cl cs T mcu hs h.approx h.frechet fun U => ⟨_, bare_reach p τ h.steps U⟩
    exact ⟨I, g, hI, hsm⟩
  -- the value of the costs
  have hval : ∀ numeric (z : Pulse ℝ p.ctrl.length), z.length = τ.length → ∃ sim',
      (gateSim p τ (.identity b) cl cs T mcu label numeric).wrappedCosts (some z) = .ok (sim', [I (arrayOf τ.length z)]) := by
    intro numeric z hz
    have hr : Ready p.bare τ (rowsOf (arrayOf τ.length z)) (fresh p.bare.cfg τ (z.map fun r => List.ofFn r)) := by
      rw [rowsOf_rowAt z τ.length hz]
      exact ready_fresh p.bare τ _ _ (bare_reach p τ h.steps _)
    have := hI (arrayOf τ.length z) _ hr
    refine ⟨{ gateSim p τ (.identity b) cl cs T mcu label numeric with
      solvers := [⟨p.ctrl.length, .identity b, .identity, τ.length, some z, some z⟩] }, ?_⟩
    simp [Sim.wrappedCosts, gateSim, Sim.given, Sim.setSolvers, SolverObj.setPars, TF.call, bind, Except.bind, pure, Except.pure,
      AmpFunc.call, Sim.costLoop, Sim.solverOf, Sim.concatenate0, hz, operationCost, solverCost, stateOf, this, Except.map]
  have hev : ∀ numeric, Evaluates (gateSim p τ (.identity b) cl cs T mcu label numeric) y.length
      fun z => List.ofFn fun _ : Fin 1 => I (arrayOf τ.length z) := by
    intro numeric
    refine ⟨⟨?_, ?_⟩, fun z hz => ?_⟩
    · intro s hs
      simp only [gateSim, List.mem_singleton] at hs
      subst hs
      exact hA.coherent
    · intro F hF s hs
      simp only [gateSim, List.mem_singleton] at hF
      subst hF
      have e : (gateSim p τ (.identity b) cl cs T mcu label numeric).solvers[0]? = some s := hs
      simp only [gateSim, List.getElem?_cons_zero, Option.some.injEq] at e
      subst e
      exact ⟨fun u => (costOn (opCosts cl cs T mcu) p.bare.cfg (fresh p.bare.cfg τ (u.map fun r => List.ofFn r))).1.map fun x => [x],
        fun tf o u => rfl⟩
    · obtain ⟨sim', h1⟩ := hval numeric z (hz.trans hy)
      exact ⟨sim', by simpa using h1⟩
  obtain ⟨simJ, J, hJ, hJl, hJd⟩ := c93_gradient (gateSim p τ (.identity b) cl cs T mcu label false) y rfl
    (fun s hs => by
      simp only [gateSim, List.mem_singleton] at hs
      subst hs
      rw [hy]
      exact hA) (by simp [gateSim])
    (fun F hF => by
      simp only [gateSim, List.mem_singleton] at hF
      subst hF
      exact ⟨_, rfl, .operation p τ h rfl rfl cl cs hcs mcu hs.plain T 0 label rfl⟩)
  -- the analytic Jacobian is the gradient
  have hJg : ∀ (t : Fin τ.length) (j : Fin p.ctrl.length), HasDerivAt (fun x : ℝ => I (arrayOf τ.length y + x • unitAmp t j))
      ((J.getD t []).getD 0 0 j) 0 := by
    intro t j
    obtain ⟨C, hC, -, hd⟩ := hJd t (by rw [hy]; exact t.2) j
    have := hd 0
    refine this.congr_of_eventuallyEq (Filter.Eventually.of_forall fun x => ?_)
    obtain ⟨s1, e1⟩ := hC x
    obtain ⟨s2, e2⟩ := hval false (shift y t j x) (by rw [shift_length, hy])
    rw [e1] at e2
    simp only [Except.ok.injEq, Prod.mk.injEq] at e2
    simp only [e2.2, List.getD_cons_zero, arrayOf_shift y hy t j x]
  have hone : ∀ (t : Fin τ.length) (j : Fin p.ctrl.length) (f : Fin τ.length → Fin p.ctrl.length → ℝ) (x : ℝ),
      ∑ t', ∑ c', f t' c' * (x • unitAmp t j) t' c' = f t j * x := by
    intro t j f x
    rw [Finset.sum_eq_single t, Finset.sum_eq_single j]
    · simp [unitAmp]
    · intro b _ hb; simp [unitAmp, hb]
    · simp
    · intro b _ hb
      exact Finset.sum_eq_zero fun k _ => by simp [unitAmp, hb]
    · simp
  -- the linear approximation
  have hlin : ∀ (t : Fin τ.length) (j : Fin p.ctrl.length) (x : ℝ),
      |I (arrayOf τ.length y + x • unitAmp t j) - I (arrayOf τ.length y) - g (arrayOf τ.length y) t j * x| ≤
        2 * (|τ.get t| * ‖p.ctrl.get j‖) ^ 2 * x ^ 2 := by
    intro t j x
    have k := hsm.linear (arrayOf τ.length y) (arrayOf τ.length y + x • unitAmp t j)
    have e1 := hone t j (g (arrayOf τ.length y)) x
    have e2 : ∑ t', ∑ c', |τ.get t'| * ‖p.ctrl.get c'‖ * |(x • unitAmp t j) t' c'| = |τ.get t| * ‖p.ctrl.get j‖ * |x| := by
      rw [← hone t j (fun t c => |τ.get t| * ‖p.ctrl.get c‖) |x|]
      refine Finset.sum_congr rfl fun t' _ => Finset.sum_congr rfl fun c' _ => ?_
      congr 1
      unfold unitAmp
      by_cases h1 : t' = t
      · subst h1
        by_cases h2 : c' = j
        · subst h2; simp
        · simp [h2]
      · simp [h1]
    simp only [Pi.add_apply, add_sub_cancel_left] at k
    rw [e1, e2] at k
    refine k.trans (le_of_eq ?_)
    rw [mul_pow _ |x|, sq_abs]
    ring
  have hJg' : ∀ (t : Fin τ.length) (j : Fin p.ctrl.length), (J.getD t []).getD 0 0 j = g (arrayOf τ.length y) t j := by
    intro t j
    refine (hJg t j).unique ?_
    rw [hasDerivAt_iff_isLittleO]
    refine Asymptotics.IsBigO.trans_isLittleO (g := fun x : ℝ => x ^ 2) ?_ ?_
    · refine Asymptotics.IsBigO.of_bound (2 * (|τ.get t| * ‖p.ctrl.get j‖) ^ 2) (Filter.Eventually.of_forall fun x => ?_)
      have := hlin t j x
      simp only [zero_smul, add_zero, sub_zero, smul_eq_mul, Real.norm_eq_abs, abs_of_nonneg (sq_nonneg x)]
      rw [mul_comm x]
      exact this
    · simpa using Asymptotics.isLittleO_pow_id (𝕜 := ℝ) one_lt_two
  have hnum : ∀ ε ≠ 0, ∀ symmetric numeric, ∃ sim' J', (gateSim p τ (.identity b) cl cs T mcu label numeric).numericGradient (some y) ε
        symmetric = .ok (sim', J') ∧ J'.length = J.length ∧
      ∀ (t : Fin τ.length) (j : Fin p.ctrl.length), |(J'.getD t []).getD 0 0 j - (J.getD t []).getD 0 0 j| ≤
        2 * (|τ.get t| * ‖p.ctrl.get j‖) ^ 2 * |ε| := by
    intro ε hε symmetric numeric
    obtain ⟨sim', J', e1, -, e2, -, e3⟩ := numericGradient_eq (gateSim p τ (.identity b) cl cs T mcu label numeric) (some y) y rfl 1
      (fun z _ => I (arrayOf τ.length z)) (hev numeric) ε symmetric
    refine ⟨sim', J', e1, by rw [e2, hJl], fun t j => ?_⟩
    have e4 := e3 t (by rw [hy]; exact t.2) 0 j
    simp only [Fin.val_zero] at e4
    rw [e4, hJg']
    simp only [arrayOf_shift y hy]
    have hp := hlin t j ε
    have hm := hlin t j (-ε)
    have hpos := abs_pos.mpr hε
    set M := 2 * (|τ.get t| * ‖p.ctrl.get j‖) ^ 2
    have hε2 : ε ^ 2 = |ε| * |ε| := by rw [← sq, sq_abs]
    cases symmetric with
    | false =>
      have e5 : (I (arrayOf τ.length y + ε • unitAmp t j) - I (arrayOf τ.length y)) / ε - g (arrayOf τ.length y) t j =
          (I (arrayOf τ.length y + ε • unitAmp t j) - I (arrayOf τ.length y) - g (arrayOf τ.length y) t j * ε) / ε := by
        field_simp
      simp only
      rw [e5, abs_div, div_le_iff₀ hpos, mul_assoc, ← hε2]
      exact hp
    | true =>
      have e5 : (I (arrayOf τ.length y + ε • unitAmp t j) - I (arrayOf τ.length y + (-ε) • unitAmp t j)) / (2 * ε) -
          g (arrayOf τ.length y) t j =
          ((I (arrayOf τ.length y + ε • unitAmp t j) - I (arrayOf τ.length y) - g (arrayOf τ.length y) t j * ε) -
            (I (arrayOf τ.length y + (-ε) • unitAmp t j) - I (arrayOf τ.length y) - g (arrayOf τ.length y) t j * -ε)) / (2 * ε) := by
        field_simp
        ring
      simp only
      rw [e5, abs_div, abs_mul, abs_two, div_le_iff₀ (by positivity)]
      refine (abs_sub _ _).trans ((add_le_add hp hm).trans (le_of_eq ?_))
      rw [neg_sq, hε2]
      ring
  refine ⟨J, ⟨simJ, hJ⟩, hnum, ?_⟩
  obtain ⟨sim', J', e1, e2, e3⟩ := hnum Sim.defaultEps (by norm_num [Sim.defaultEps]) false true
  refine ⟨sim', J', e1, e2, fun t j => (e3 t j).trans (le_of_eq ?_)⟩
  have e4 : |Sim.defaultEps| = 1 / 100000000 := abs_of_nonneg (by norm_num [Sim.defaultEps])
  rw [e4]
  ring

/-! ### A case of C121 -/

theorem Ex93.closed {L : Lapack (Fin 2)} (hE : L.ExpmOk) (hF : L.FrechetOk) :
    NoisySystem (Ex93.par L).bare [1, 1, 1, 1] [] none !![0, 1; 1, 0] false false :=
  ⟨(Ex93.par_exact hE hF).valid, (Ex93.par_exact hE hF).stable, rfl, hE, by simp [SPar.bare], Ex93.drift_hermitian L, Ex93.ctrl_hermitian L,
    by simp, one_mem _, ⟨(0 : Fin 2)⟩, by simp, Or.inl rfl, Or.inr (by
      have h : (!![0, 1; 1, 0] : Matrix (Fin 2) (Fin 2) ℂ) ∈ Matrix.unitaryGroup (Fin 2) ℂ := by
        rw [Matrix.mem_unitaryGroup_iff]
        ext i j; fin_cases i <;> fin_cases j <;> simp [Matrix.mul_apply, Fin.sum_univ_two, Matrix.star_apply]
      exact h)⟩

/-- A qubit with two controls on four steps of length one: every pulse, every step width. -/
example (y : Pulse ℝ 2) (hy : y.length = 4) (cl : Closest) : ∃ (L : Lapack (Fin 2)) (tf : TF ℝ 2) (J J' : List (List (Fin 2 → ℝ))) (s s' : Sim 2),
    (gateSim (Ex93.par L) [1, 1, 1, 1] tf cl none !![0, 1; 1, 0] false "gate" false).wrappedJac (some y) = .ok (s, J) ∧
    (gateSim (Ex93.par L) [1, 1, 1, 1] tf cl none !![0, 1; 1, 0] false "gate" true).wrappedJac (some y) = .ok (s', J') ∧
    ∀ t : Fin 4, |(J'.getD t []).getD 0 0 0 - (J.getD t []).getD 0 0 0| ≤ 2 * ‖(!![0, 1; 1, 0] : Matrix (Fin 2) (Fin 2) ℂ)‖ ^ 2 / 100000000 := by
  obtain ⟨L, -, -, hE, hF⟩ := lapack_exists (Fin 2)
  obtain ⟨tf, htf⟩ : ∃ t : TF ℝ 2, (TF.identity (Base.init ℝ none 1) : TF ℝ 2).setTimes [1, 1, 1, 1] = .ok t := by
    simp [TF.setTimes, Base.setTimes, Base.init, bind, Except.bind, pure, Except.pure]
  obtain ⟨J, ⟨s, h1⟩, -, s', J', h2, -, h3⟩ := c121_numeric (Ex93.par L) [1, 1, 1, 1] tf htf cl none !![0, 1; 1, 0] false "gate"
    (Ex93.par_exact hE hF) (Ex93.closed hE hF) y hy
  refine ⟨L, tf, J, J', s, s', h1, h2, fun t => (h3 t (0 : Fin 2)).trans (le_of_eq ?_)⟩
  have : ([1, 1, 1, 1] : List ℝ).get t = 1 := by fin_cases t <;> rfl
  rw [this, abs_one, one_mul]
  rfl

end
end Verif.Sim
