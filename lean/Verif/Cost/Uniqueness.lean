import Verif.Cost.OpenExistence

/-!
# C136 and C139: the exact solutions are determined by the initial state

The exact solutions of the Schroedinger equation and of the master equation with which C136 and C139 compare the solvers are unique.
-/

namespace Verif.Cost
open Verif Verif.Operator Verif.Solver Matrix
open scoped Kronecker ComplexOrder Topology Matrix.Norms.L2Operator

variable {n : Type} [Fintype n] [DecidableEq n]

/-! ## Lemmas -/

theorem Evolves.unique {H X Y : ℝ → Matrix n n ℂ} {S : ℝ} (hX : Evolves H X S) (hY : Evolves H Y S)
    (hH : ∀ s ∈ Set.Ico 0 S, (H s).IsHermitian) (h0 : X 0 = Y 0) : ∀ s ∈ Set.Icc 0 S, X s = Y s := by
  let _ : NormedAlgebra ℝ (Matrix n n ℂ) := NormedAlgebra.restrictScalars ℝ ℂ _
  have hZ : Evolves H (fun s => X s - Y s) S := ⟨hX.cont.sub hY.cont, fun s hs => ((hX.deriv s hs).sub (hY.deriv s hs)).congr_deriv (by
    rw [Matrix.mul_sub, smul_sub])⟩
  have hc := constant_of_has_deriv_right_zero (f := fun s => star (X s - Y s) * (X s - Y s)) (a := 0) (b := S)
    ((hZ.cont.star).mul hZ.cont) (fun s hs => by
      have hd := hZ.deriv s hs
      refine ((hd.star).mul hd).congr_deriv ?_
      have e : star (H s) = H s := hH s hs
      rw [star_smul, star_mul, e]
      simp [Matrix.mul_assoc])
  intro s hs
  have h1 := hc s hs
  simp only [h0, sub_self, mul_zero] at h1
  exact sub_eq_zero.1 (Matrix.conjTranspose_mul_self_eq_zero.1 h1)

/-! ## C136 -/

/-- **C136** The exact solution with which the simulation is compared is unique: it depends neither on how the drift is written as a function of the
time nor on the values of the controls outside of the pulse. -/
theorem c136_unique (p : SPar n n) (τ : List ℝ) (hd : ∀ H ∈ p.drift, H.IsHermitian) (hc : ∀ H ∈ p.ctrl, H.IsHermitian) (D D' : ℝ → Matrix n n ℂ)
    (v v' : ℝ → Fin p.ctrl.length → ℝ) (hv : ∀ s ∈ Set.Ico 0 (∑ t, (p.xTimes τ).get t), v' s = v s) (X X' : ℝ → Matrix n n ℂ)
    (h : ContinuousSystem p τ D v X) (h' : ContinuousSystem p τ D' v' X') :
    ∀ s ∈ Set.Icc 0 (∑ t, (p.xTimes τ).get t), X' s = X s := by
  have e : ∀ s ∈ Set.Ico 0 (∑ t, (p.xTimes τ).get t), continuousHam D' p.ctrl.get v' s = continuousHam D p.ctrl.get v s := by
    intro s hs
    obtain ⟨t, ht⟩ := step_of_time hs
    unfold continuousHam
    rw [h.drift t s ht, h'.drift t s ht, hv s hs]
  have k : Evolves (continuousHam D p.ctrl.get v) X' (∑ t, (p.xTimes τ).get t) := ⟨h'.evolves.cont, fun s hs => by
    rw [← e s hs]
    exact h'.evolves.deriv s hs⟩
  exact k.unique h.evolves (h.hermitian hd hc) (h'.start.trans h.start.symm)

/-! ## C139 -/

/-- **C139** For continuous Hamiltonians and rates the solution of the master equation is determined by the initial state: no other function
solves it, whether or not its values are density matrices. -/
theorem c139_unique (H : ℝ → Matrix n n ℂ) (w : ℝ → List ℝ) (Ls : List (Matrix n n ℂ)) (S : ℝ)
    (hH : ∀ s ∈ Set.Icc 0 S, (H s).IsHermitian) (hHc : ContinuousOn H (Set.Icc 0 S))
    (hl : ∀ s ∈ Set.Icc 0 S, (w s).length = Ls.length)
    (hw : ∀ k < Ls.length, ContinuousOn (fun s => (w s).getD k 0) (Set.Icc 0 S)) (ρ ρ' : ℝ → Matrix n n ℂ)
    (h : OpenEvolves H w Ls S ρ) (hc : ContinuousOn ρ' (Set.Icc 0 S))
    (hd : ∀ s ∈ Set.Ico 0 S, HasDerivWithinAt ρ' (master (H s) ((w s).zip Ls) (ρ' s)) (Set.Ici s) s) (h0 : ρ 0 = ρ' 0) : ∀ s ∈ Set.Icc 0 S, ρ s = ρ' s := by
  have hA : ContinuousOn (fun s => supL n (masterGen (H s) ((w s).zip Ls))) (Set.Icc 0 S) :=
    (supL n).continuous.comp_continuousOn (masterGen_cont hHc hl hw)
  have hap : ∀ s ∈ Set.Icc 0 S, ∀ X, supL n (masterGen (H s) ((w s).zip Ls)) X = master (H s) ((w s).zip Ls) X := by
    intro s hs X
    rw [supL_apply, masterGen_mulVec (hH s hs)]
    rfl
  obtain ⟨M, hM⟩ := isCompact_Icc.exists_bound_of_continuousOn hA
  refine ODE_solution_unique_of_mem_Icc_right (v := fun s X => supL n (masterGen (H s) ((w s).zip Ls)) X) (s := fun _ => Set.univ)
    (K := M.toNNReal) (fun s hs => ?_) h.cont (fun s hs => ?_) (fun _ _ => trivial) hc (fun s hs => ?_) (fun _ _ => trivial) h0
  · have hb := hM s (Set.Ico_subset_Icc_self hs)
    refine ((supL n (masterGen (H s) ((w s).zip Ls))).lipschitz.weaken ?_).lipschitzOnWith
    rw [← NNReal.coe_le_coe]
    exact hb.trans (Real.le_coe_toNNReal M)
  · rw [hap s (Set.Ico_subset_Icc_self hs)]
    exact h.deriv s hs
  · rw [hap s (Set.Ico_subset_Icc_self hs)]
    exact hd s hs

/-! ## Cases -/

/-- `c136_unique` applies: the controls of C136 which turn around have an exact solution, and no other. -/
example (L : Lapack (Fin 2)) (hE : L.ExpmOk) : ∃ D X, ContinuousSystem (Ex136.par L) [1, 2, 3] D Ex136.turning X ∧
    ∀ D' X', ContinuousSystem (Ex136.par L) [1, 2, 3] D' Ex136.turning X' →
      ∀ s ∈ Set.Icc 0 (∑ t, ((Ex136.par L).xTimes [1, 2, 3]).get t), X' s = X s := by
  obtain ⟨D, X, h⟩ := c136_solution (Ex136.par L) [1, 2, 3] (fun t => by
    have : ((Ex136.par L).xTimes [1, 2, 3]).get t ∈ [(1 : ℝ), 2, 3] := List.get_mem _ _
    simp only [List.mem_cons, List.not_mem_nil, or_false] at this
    rcases this with h | h | h <;> rw [h] <;> norm_num) Ex136.turning fun c => Ex136.turning_cont c _
  exact ⟨D, X, h, fun D' X' h' => c136_unique (Ex136.par L) [1, 2, 3] (Ex136.system hE).drift (qubit_system hE).ctrl D D' _ _ (fun _ _ => rfl) X X' h h'⟩

/-- `c139_unique` applies: a driven qubit whose decay rate oscillates has exactly one evolution from its ground state. -/
example : ∃ ρ : ℝ → Matrix (Fin 2) (Fin 2) ℂ, ρ 0 = !![1, 0; 0, 0] ∧
    OpenEvolves (fun s => !![(Real.cos s : ℂ), 0; 0, -1]) (fun s => [Real.cos s ^ 2]) [!![0, 1; 0, 0]] 1 ρ ∧
    ∀ ρ', ρ' 0 = !![1, 0; 0, 0] → OpenEvolves (fun s => !![(Real.cos s : ℂ), 0; 0, -1]) (fun s => [Real.cos s ^ 2]) [!![0, 1; 0, 0]] 1 ρ' →
      ∀ s ∈ Set.Icc (0 : ℝ) 1, ρ s = ρ' s := by
  have hH : ∀ s ∈ Set.Icc (0 : ℝ) 1, (!![(Real.cos s : ℂ), 0; 0, -1] : Matrix (Fin 2) (Fin 2) ℂ).IsHermitian := by
    intro s _
    ext i j
    have e : star ((Real.cos s : ℝ) : ℂ) = (Real.cos s : ℝ) := Complex.conj_ofReal _
    fin_cases i <;> fin_cases j
    · exact e
    all_goals simp
  have hHc : ContinuousOn (fun s : ℝ => (!![(Real.cos s : ℂ), 0; 0, -1] : Matrix (Fin 2) (Fin 2) ℂ)) (Set.Icc 0 1) := by
    refine Continuous.continuousOn (continuous_matrix fun i j => ?_)
    have := Complex.continuous_ofReal.comp Real.continuous_cos
    fin_cases i <;> fin_cases j
    · exact this
    · exact continuous_const
    · exact continuous_const
    · exact continuous_const
  have hw : ∀ k < [(!![0, 1; 0, 0] : Matrix (Fin 2) (Fin 2) ℂ)].length, ContinuousOn (fun s : ℝ => [Real.cos s ^ 2].getD k 0) (Set.Icc 0 1) := by
    intro k hk
    have : k = 0 := by simpa using hk
    subst this
    exact (Real.continuous_cos.pow 2).continuousOn
  obtain ⟨ρ, h1, h2⟩ := c139_solution _ (fun s => [Real.cos s ^ 2]) [!![0, 1; 0, 0]] 1 zero_le_one hH hHc (fun _ _ => rfl)
    (fun s _ r hr => by rw [List.mem_singleton.1 hr]; positivity) hw !![1, 0; 0, 0]
    (by
      rw [show (!![1, 0; 0, 0] : Matrix (Fin 2) (Fin 2) ℂ) = Matrix.diagonal ![1, 0] by ext i j; fin_cases i <;> fin_cases j <;> simp,
        Matrix.posSemidef_diagonal_iff]
      intro i
      fin_cases i <;> simp)
    (by simp [Matrix.trace_fin_two])
  exact ⟨ρ, h1, h2, fun ρ' h1' h2' => c139_unique _ _ _ 1 hH hHc (fun _ _ => rfl) hw ρ ρ' h2 h2'.cont h2'.deriv (h1.trans h1'.symm)⟩

end Verif.Cost
