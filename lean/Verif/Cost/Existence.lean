import Mathlib.Analysis.ODE.ExistUnique
import Verif.Cost.Master

/-!
# C136: the Schroedinger equation with continuous controls has a solution

The statements of C136 are about all solutions of the Schroedinger equation.  For continuous controls, and drifts which change between
the time steps, there is one for every initial operator.
-/

namespace Verif.Cost
open Verif Verif.Operator Verif.Solver Matrix

section Linear
variable {E : Type*} [NormedAddCommGroup E] [NormedSpace ℝ E]

/-- `X' = F s X` can be solved between the times `a` and `b` for every initial value. -/
def Solvable (F : ℝ → E → E) (a b : ℝ) : Prop :=
  ∀ x₀, ∃ X : ℝ → E, X a = x₀ ∧ ContinuousOn X (Set.Icc a b) ∧ ∀ s ∈ Set.Ico a b, HasDerivWithinAt X (F s (X s)) (Set.Ici s) s

theorem Solvable.refl (F : ℝ → E → E) (a : ℝ) : Solvable F a a :=
  fun x₀ => ⟨fun _ => x₀, rfl, continuousOn_const, fun _ hs => absurd (hs.1.trans_lt hs.2) (lt_irrefl _)⟩

theorem Solvable.congr {F G : ℝ → E → E} {a b : ℝ} (h : Solvable F a b) (hFG : ∀ s ∈ Set.Ico a b, F s = G s) : Solvable G a b := by
  intro x₀
  obtain ⟨X, h1, h2, h3⟩ := h x₀
  exact ⟨X, h1, h2, fun s hs => by rw [← hFG s hs]; exact h3 s hs⟩

theorem Solvable.trans {F : ℝ → E → E} {a b c : ℝ} (hab : a ≤ b) (hbc : b ≤ c) (h : Solvable F a b) (h' : Solvable F b c) : Solvable F a c := by
  intro x₀
  obtain ⟨X, h1, h2, h3⟩ := h x₀
  obtain ⟨Y, k1, k2, k3⟩ := h' (X b)
  have hY : ∀ s, b ≤ s → (if s ≤ b then X s else Y s) = Y s := by
    intro s hs
    split
    · rw [le_antisymm ‹_› hs, k1]
    · rfl
  refine ⟨fun s => if s ≤ b then X s else Y s, by simp [hab, h1], ?_, fun s hs => ?_⟩
  · rw [← Set.Icc_union_Icc_eq_Icc hab hbc]
    refine ContinuousOn.union_of_isClosed ?_ ?_ isClosed_Icc isClosed_Icc
    · exact h2.congr fun s hs => if_pos hs.2
    · exact k2.congr fun s hs => hY s hs.1
  · by_cases hsb : s < b
    · have h4 := h3 s ⟨hs.1, hsb⟩
      simp only [if_pos hsb.le]
      refine h4.congr_of_eventuallyEq ?_ (if_pos hsb.le)
      filter_upwards [mem_nhdsWithin_of_mem_nhds (Iio_mem_nhds hsb)] with r hr
      exact if_pos (le_of_lt hr)
    · rw [not_lt] at hsb
      have h4 := k3 s ⟨hsb, hs.2⟩
      simp only [hY s hsb]
      exact h4.congr (fun r hr => hY r (hsb.trans hr)) (hY s hsb)

variable [CompleteSpace E]

theorem solvable_short {A : ℝ → E →L[ℝ] E} {a b M : ℝ} (hab : a ≤ b) (hA : ContinuousOn A (Set.Icc a b)) (hM : ∀ s ∈ Set.Icc a b, ‖A s‖ ≤ M)
    (hs : M * (b - a) ≤ 1 / 2) : Solvable (fun s x => A s x) a b := by
  intro x₀
  have hM0 : 0 ≤ M := (norm_nonneg _).trans (hM a ⟨le_refl _, hab⟩)
  have hp : IsPicardLindelof (fun s x => A s x) (tmin := a) (tmax := b) ⟨a, le_refl _, hab⟩ x₀ ‖x₀‖₊ 0 (⟨M, hM0⟩ * (2 * ‖x₀‖₊)) ⟨M, hM0⟩ := by
    refine ⟨fun t ht => ?_, fun x _ => ?_, fun t ht x hx => ?_, ?_⟩
    · have h := (A t).lipschitz.weaken (show ‖A t‖₊ ≤ ⟨M, hM0⟩ from hM t ht)
      exact h.lipschitzOnWith
    · exact hA.clm_apply continuousOn_const
    · refine ((A t).le_opNorm x).trans ?_
      rw [mem_closedBall_iff_norm] at hx
      have hx' : ‖x‖ ≤ 2 * ‖x₀‖ := by
        calc ‖x‖ = ‖(x - x₀) + x₀‖ := by rw [sub_add_cancel]
          _ ≤ ‖x - x₀‖ + ‖x₀‖ := norm_add_le _ _
          _ ≤ 2 * ‖x₀‖ := by rw [coe_nnnorm] at hx; linarith
      exact mul_le_mul (hM t ht) hx' (norm_nonneg _) hM0
    · have e : max (b - a) (a - a) = b - a := max_eq_left (by linarith)
      show M * (2 * ‖x₀‖) * max (b - a) (a - a) ≤ ‖x₀‖ - 0
      rw [e]
      nlinarith [norm_nonneg x₀]
  obtain ⟨X, h1, h2⟩ := hp.exists_eq_forall_mem_Icc_hasDerivWithinAt₀
  refine ⟨X, h1, fun s hs => (h2 s hs).continuousWithinAt, fun s hs => ?_⟩
  exact (h2 s ⟨hs.1, hs.2.le⟩).mono_of_mem_nhdsWithin (Icc_mem_nhdsGE_of_mem hs)

theorem solvable_linear {A : ℝ → E →L[ℝ] E} {a b : ℝ} (hab : a ≤ b) (hA : ContinuousOn A (Set.Icc a b)) :
    Solvable (fun s x => A s x) a b := by
  obtain ⟨M, hM⟩ := isCompact_Icc.exists_bound_of_continuousOn hA
  obtain ⟨N, hN⟩ := exists_nat_gt (max (2 * (M * (b - a))) 0)
  have hN0 : (0 : ℝ) < N := (le_max_right _ _).trans_lt hN
  have hδ : 0 ≤ (b - a) / N := div_nonneg (by linarith) hN0.le
  have key : ∀ k : Nat, k ≤ N → Solvable (fun s x => A s x) a (a + k * ((b - a) / N)) := by
    intro k
    induction k with
    | zero => intro _; simpa using Solvable.refl _ a
    | succ k ih =>
      intro hk
      have hkN : ((k : ℝ) + 1) ≤ N := by exact_mod_cast hk
      have hle : a + ((k : ℝ) + 1) * ((b - a) / N) ≤ b := by
        have : ((k : ℝ) + 1) * ((b - a) / N) ≤ N * ((b - a) / N) := mul_le_mul_of_nonneg_right hkN hδ
        rw [mul_div_cancel₀ _ hN0.ne'] at this
        linarith
      have h0 : a ≤ a + (k : ℝ) * ((b - a) / N) := by
        have := mul_nonneg (Nat.cast_nonneg (α := ℝ) k) hδ
        linarith
      have h1 : a + (k : ℝ) * ((b - a) / N) ≤ a + ((k : ℝ) + 1) * ((b - a) / N) := by linarith
      have hsub : Set.Icc (a + (k : ℝ) * ((b - a) / N)) (a + ((k : ℝ) + 1) * ((b - a) / N)) ⊆ Set.Icc a b :=
        Set.Icc_subset_Icc h0 hle
      push_cast
      refine (ih (by omega)).trans h0 h1 (solvable_short h1 (hA.mono hsub) (fun s hs => hM s (hsub hs)) ?_)
      have h2 : 2 * (M * (b - a)) ≤ N := (le_max_left _ _).trans hN.le
      have h3 : M * (a + ((k : ℝ) + 1) * ((b - a) / N) - (a + (k : ℝ) * ((b - a) / N))) = M * (b - a) / N := by ring
      rw [h3, div_le_iff₀ hN0]
      linarith
  have h := key N (le_refl _)
  rwa [mul_div_cancel₀ _ hN0.ne', add_sub_cancel] at h

end Linear

section
open scoped Matrix.Norms.L2Operator
variable {n : Type} [Fintype n] [DecidableEq n]

/-- **C136** For continuous controls the Schroedinger equation has a solution, so that the bounds of `c136_deviation`,
`c136_lipschitz` and `c136_midpoint` are about an evolution which exists. -/
theorem c136_solution (p : SPar n n) (τ : List ℝ) (hτ : ∀ t, 0 ≤ (p.xTimes τ).get t) (v : ℝ → Fin p.ctrl.length → ℝ)
    (hv : ∀ c, ContinuousOn (fun s => v s c) (Set.Icc 0 (∑ t, (p.xTimes τ).get t))) : ∃ D X, ContinuousSystem p τ D v X := by
  obtain ⟨D, hD⟩ := stepped_function hτ fun t : Fin (p.xTimes τ).length => p.drift.getD t 0
  have hS : ∀ i, i ≤ (p.xTimes τ).length → gridPoint (p.xTimes τ).get i ≤ ∑ t, (p.xTimes τ).get t := by
    intro i hi
    have := gridPoint_mono hτ hi
    rwa [show gridPoint (p.xTimes τ).get (p.xTimes τ).length = ∑ t, (p.xTimes τ).get t by simp [gridPoint]] at this
  have key : ∀ i, i ≤ (p.xTimes τ).length →
      Solvable (fun s X => (-Complex.I) • (continuousHam D p.ctrl.get v s * X)) 0 (gridPoint (p.xTimes τ).get i) := by
    intro i
    induction i with
    | zero => intro _; rw [gridPoint_zero]; exact Solvable.refl _ _
    | succ i ih =>
      intro hi
      have h0 : 0 ≤ gridPoint (p.xTimes τ).get i := by
        have := gridPoint_mono hτ (Nat.zero_le i)
        rwa [gridPoint_zero] at this
      have h1 := gridPoint_mono hτ (Nat.le_succ i)
      refine (ih (by omega)).trans h0 h1 ?_
      have hG : ContinuousOn (fun s => (-Complex.I) • (p.drift.getD i 0 + ∑ c, ((v s c : ℝ) : ℂ) • p.ctrl.get c))
          (Set.Icc (gridPoint (p.xTimes τ).get i) (gridPoint (p.xTimes τ).get (i + 1))) := by
        have hsum : ∀ c ∈ Finset.univ, ContinuousOn (fun s => ((v s c : ℝ) : ℂ) • p.ctrl.get c)
            (Set.Icc (gridPoint (p.xTimes τ).get i) (gridPoint (p.xTimes τ).get (i + 1))) := by
          intro c _
          have h2 : ContinuousOn (fun s => ((v s c : ℝ) : ℂ)) (Set.Icc (gridPoint (p.xTimes τ).get i) (gridPoint (p.xTimes τ).get (i + 1))) :=
            Complex.continuous_ofReal.comp_continuousOn ((hv c).mono (Set.Icc_subset_Icc h0 (hS _ hi)))
          exact h2.smul (continuousOn_const (c := p.ctrl.get c))
        have h2 := (continuousOn_const (c := p.drift.getD i 0)).add (continuousOn_finsetSum _ hsum)
        exact h2.const_smul (-Complex.I)
      have hA := (ContinuousLinearMap.mul ℝ (Matrix n n ℂ)).continuous.comp_continuousOn hG
      refine (solvable_linear h1 hA).congr fun s hs => ?_
      funext X
      rw [continuousHam, hD ⟨i, hi⟩ s hs, ← Matrix.smul_mul]
      rfl
  obtain ⟨X, h1, h2, h3⟩ := key _ (le_refl _) p.init
  rw [show gridPoint (p.xTimes τ).get (p.xTimes τ).length = ∑ t, (p.xTimes τ).get t by simp [gridPoint]] at h2 h3
  exact ⟨D, X, hτ, hD, h1, h2, h3⟩

/-- **C136** A constant drift and continuous controls between the times 0 and `S`: there is a solution of the Schroedinger equation, and
the propagators and infidelities computed for the amplitudes sampled anywhere in the time steps converge to it: for every `ε` all
sufficiently fine time grids, equidistant or not, reproduce it up to `ε`. -/
theorem c136_converges (p : SPar n n) (H₀ : Matrix n n ℂ) (S : ℝ) (hS : 0 ≤ S) (v : ℝ → Fin p.ctrl.length → ℝ)
    (hv : ∀ c, ContinuousOn (fun s => v s c) (Set.Icc 0 S)) (cl : Closest) (cs : Option (List n))
    (T : Matrix (CompIdx cs) (CompIdx cs) ℂ) (mcu : Bool) :
    ∃ X, X 0 = p.init ∧ Evolves (continuousHam (fun _ => H₀) p.ctrl.get v) X S ∧ ∀ ε > 0, ∃ δ > 0, ∀ τ : List ℝ,
      NoisySystem { p with drift := List.replicate (p.xTimes τ).length H₀ } τ [] cs T mcu false →
      (∀ t, 0 ≤ (p.xTimes τ).get t ∧ (p.xTimes τ).get t ≤ δ) → ∑ t, (p.xTimes τ).get t = S →
      ∀ ξ : Fin (p.xTimes τ).length → ℝ,
        (∀ t : Fin (p.xTimes τ).length, ξ t ∈ Set.Icc (gridPoint (p.xTimes τ).get t) (gridPoint (p.xTimes τ).get (t + 1))) →
        Simulates { p with drift := List.replicate (p.xTimes τ).length H₀ } τ cl cs T mcu (rowsOf fun t => v (ξ t)) (X S) ε := by
  have hG : ContinuousOn (fun s => (-Complex.I) • (H₀ + ∑ c, ((v s c : ℝ) : ℂ) • p.ctrl.get c)) (Set.Icc 0 S) := by
    have hsum : ∀ c ∈ Finset.univ, ContinuousOn (fun s => ((v s c : ℝ) : ℂ) • p.ctrl.get c) (Set.Icc 0 S) := by
      intro c _
      have h2 : ContinuousOn (fun s => ((v s c : ℝ) : ℂ)) (Set.Icc 0 S) := Complex.continuous_ofReal.comp_continuousOn (hv c)
      exact h2.smul (continuousOn_const (c := p.ctrl.get c))
    have h2 := (continuousOn_const (c := H₀)).add (continuousOn_finsetSum _ hsum)
    exact h2.const_smul (-Complex.I)
  have hA := (ContinuousLinearMap.mul ℝ (Matrix n n ℂ)).continuous.comp_continuousOn hG
  obtain ⟨X, h1, h2, h3⟩ := solvable_linear hS hA p.init
  have hX : Evolves (continuousHam (fun _ => H₀) p.ctrl.get v) X S := by
    refine ⟨h2, fun s hs => ?_⟩
    have h := h3 s hs
    rw [← Matrix.smul_mul]
    exact h
  refine ⟨X, h1, hX, fun ε hε => ?_⟩
  have hu : UniformContinuousOn v (Set.Icc 0 S) :=
    isCompact_Icc.uniformContinuousOn_of_continuous (continuousOn_pi.mpr hv)
  have hC : 0 ≤ ∑ c, ‖p.ctrl.get c‖ := Finset.sum_nonneg fun c _ => norm_nonneg _
  have hpos : 0 < S * (∑ c, ‖p.ctrl.get c‖) + 1 := by have := mul_nonneg hS hC; linarith
  obtain ⟨δ, hδ, hδ'⟩ := Metric.uniformContinuousOn_iff.mp hu _ (div_pos hε hpos)
  refine ⟨δ / 2, by linarith, fun τ hs hτ hsum ξ hξ => ?_⟩
  have hsys : ContinuousSystem { p with drift := List.replicate (p.xTimes τ).length H₀ } τ (fun _ => H₀) v X := by
    refine ⟨fun t => (hτ t).1, fun t s _ => ?_, h1, ?_⟩
    · have ht : (t : Nat) < (p.xTimes τ).length := t.2
      simp [List.getD_eq_getElem?_getD, ht]
    · have e : ∑ t, (({ p with drift := List.replicate (p.xTimes τ).length H₀ } : SPar n n).xTimes τ).get t = S := hsum
      rw [e]
      exact hX
  have hcov : ∀ i, i ≤ (p.xTimes τ).length → gridPoint (p.xTimes τ).get i ∈ Set.Icc 0 S := by
    intro i hi
    have a1 := gridPoint_mono (fun t => (hτ t).1) (Nat.zero_le i)
    have a2 := gridPoint_mono (fun t => (hτ t).1) hi
    rw [gridPoint_zero] at a1
    rw [show gridPoint (p.xTimes τ).get (p.xTimes τ).length = ∑ t, (p.xTimes τ).get t by simp [gridPoint], hsum] at a2
    exact ⟨a1, a2⟩
  have hdev := c136_deviation _ τ cl cs T mcu hs (fun _ => H₀) v X hsys (fun t => v (ξ t))
    (fun _ _ => ε / (S * (∑ c, ‖p.ctrl.get c‖) + 1)) (by
      intro t c s hst
      have g1 := hcov t t.2.le
      have g2 := hcov (t + 1) t.2
      have g3 : gridPoint (p.xTimes τ).get (t + 1) = gridPoint (p.xTimes τ).get t + (p.xTimes τ).get t := gridPoint_succ _ t
      have g4 := hξ t
      have g5 := (hτ t).2
      have hst' : s ∈ Set.Ico (gridPoint (p.xTimes τ).get t) (gridPoint (p.xTimes τ).get (t + 1)) := hst
      have hd := hδ' s ⟨g1.1.trans hst'.1, hst'.2.le.trans g2.2⟩ (ξ t) ⟨g1.1.trans g4.1, g4.2.trans g2.2⟩ (by
        rw [Real.dist_eq, abs_lt]
        constructor <;> linarith [hst'.1, hst'.2, g4.1, g4.2])
      have := dist_le_pi_dist (v s) (v (ξ t)) c
      rw [Real.dist_eq] at this
      exact this.trans hd.le)
  have e : ∑ t, (({ p with drift := List.replicate (p.xTimes τ).length H₀ } : SPar n n).xTimes τ).get t = S := hsum
  rw [e] at hdev
  intro st hst
  obtain ⟨f, F, c, k1, k2, k3, k4, k5⟩ := hdev st hst
  have hb : ∑ t, (({ p with drift := List.replicate (p.xTimes τ).length H₀ } : SPar n n).xTimes τ).get t *
      ∑ c, ε / (S * (∑ c, ‖p.ctrl.get c‖) + 1) * ‖p.ctrl.get c‖ ≤ ε := by
    rw [← Finset.sum_mul, e, ← Finset.mul_sum, ← mul_div_right_comm, ← mul_div_assoc, div_le_iff₀ hpos]
    nlinarith
  exact ⟨f, F, c, k1, k2, k3, k4.trans hb, k5.trans (by linarith [hb])⟩

namespace Ex136

theorem fine {L : Lapack (Fin 2)} (hE : L.ExpmOk) (τ : List ℝ) (hτ : τ ≠ []) :
    NoisySystem { par L with drift := List.replicate τ.length !![1, 0; 0, -1] } τ [] none 1 false false where
  valid := ⟨by simp [par], by simp [par], by simp [par]⟩
  stable := Or.inl ⟨rfl, rfl⟩
  method := rfl
  expm := hE
  times := hτ
  drift := by
    intro H hH
    rw [List.eq_of_mem_replicate hH]
    ext i j
    fin_cases i <;> fin_cases j <;> simp
  ctrl := (qubit_system hE).ctrl
  noise := by simp
  init := Submonoid.one_mem _
  states := ⟨(0 : Fin 2)⟩
  distinct := by simp
  plain := Or.inl rfl
  target := Or.inr (Submonoid.one_mem _)

/-- A control field which turns around. -/
noncomputable def turning (s : ℝ) (c : Fin 2) : ℝ := if c = 0 then Real.cos s else Real.sin s

theorem turning_cont (c : Fin 2) (A : Set ℝ) : ContinuousOn (fun s => turning s c) A := by
  unfold turning
  by_cases h : c = 0
  · simp only [h, if_true]
    exact Real.continuous_cos.continuousOn
  · simp only [h, if_false]
    exact Real.continuous_sin.continuousOn

/-- `c136_converges` and `c136_solution` apply: a qubit in a field which turns around, simulated with equal time steps, sampled at their
start. -/
example : ∃ (L : Lapack (Fin 2)) (X : ℝ → Matrix (Fin 2) (Fin 2) ℂ), X 0 = 1 ∧
    Evolves (continuousHam (fun _ => !![1, 0; 0, -1]) (par L).ctrl.get turning) X 1 ∧ ∀ ε > 0, ∃ N : Nat, 0 < N ∧
      Simulates { par L with drift := List.replicate (List.replicate N (1 / N : ℝ)).length !![1, 0; 0, -1] } (List.replicate N (1 / N : ℝ))
        (fun A => A) none 1 false (rowsOf fun t : Fin (List.replicate N (1 / N : ℝ)).length => turning (gridPoint (List.replicate N (1 / N : ℝ)).get t)) (X 1) ε ∧
      ∃ D X', ContinuousSystem { par L with drift := List.replicate (List.replicate N (1 / N : ℝ)).length !![1, 0; 0, -1] }
        (List.replicate N (1 / N : ℝ)) D turning X' := by
  obtain ⟨L, -, -, hE, -⟩ := lapack_exists (Fin 2)
  obtain ⟨X, h1, h2, h3⟩ := c136_converges (par L) !![1, 0; 0, -1] 1 zero_le_one turning (fun c => turning_cont c _) (fun A => A) none 1 false
  refine ⟨L, X, h1, h2, fun ε hε => ?_⟩
  obtain ⟨δ, hδ, h4⟩ := h3 ε hε
  obtain ⟨N, hN⟩ := exists_nat_gt (max (1 / δ) 0)
  have hN0 : (0 : ℝ) < N := (le_max_right _ _).trans_lt hN
  have hN1 : 0 < N := by exact_mod_cast hN0
  have hne : List.replicate N (1 / N : ℝ) ≠ [] := fun h => hN1.ne' (by simpa using congrArg List.length h)
  have hg : ∀ t, (List.replicate N (1 / N : ℝ)).get t = 1 / N := fun t => by simp
  have hstep : ∀ t, 0 ≤ (List.replicate N (1 / N : ℝ)).get t := fun t => by rw [hg]; positivity
  refine ⟨N, hN1, h4 (List.replicate N (1 / N : ℝ)) (fine hE _ hne) (fun t => ?_) ?_ _ (fun t => ?_),
    c136_solution { par L with drift := List.replicate (List.replicate N (1 / N : ℝ)).length !![1, 0; 0, -1] } _ hstep turning fun c => turning_cont c _⟩
  · refine ⟨hstep t, (le_of_eq (hg t)).trans ?_⟩
    have := (le_max_left _ _).trans_lt hN
    rw [div_lt_iff₀ hδ] at this
    rw [div_le_iff₀ hN0]
    linarith
  · show ∑ t, (List.replicate N (1 / N : ℝ)).get t = 1
    rw [Finset.sum_congr rfl fun t _ => hg t]
    simp
    exact mul_inv_cancel₀ hN0.ne'
  · exact ⟨le_rfl, gridPoint_mono hstep (Nat.le_succ _)⟩

end Ex136

end

end Verif.Cost
