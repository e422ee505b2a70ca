import Verif.Cost.MatrixNorm
import Mathlib.Analysis.SpecialFunctions.ExpDeriv
import Mathlib.Analysis.SpecialFunctions.Trigonometric.Deriv
import Mathlib.Analysis.Complex.Trigonometric

/-!
# C141: the gradient of `OperatorMatrixNorm` (cost_functions.py:324-402)
-/

namespace Verif.Cost
open Verif Verif.Operator Matrix

/-- What `Solver.transferred_time` may be: an array, a list or a single number. -/
inductive NormTimes where
  | array (t : List ℝ) | list (t : List ℝ) | number (t : ℝ)

section
variable {d : Nat}

/-- `propagators_future`, cost_functions.py:351-355. -/
def normFutures (props : List (Matrix (Fin (d + 1)) (Fin (d + 1)) ℂ)) : List (Matrix (Fin (d + 1)) (Fin (d + 1)) ℂ) :=
  (props.tail.reverse.scanl (· * ·) 1).reverse

/-- `complex_jac` of time step `i` and control `j`, cost_functions.py:373-380. -/
noncomputable def stepJac (tau : ℝ) (h props fwd : List (Matrix (Fin (d + 1)) (Fin (d + 1)) ℂ)) (i j : Nat) : Matrix (Fin (d + 1)) (Fin (d + 1)) ℂ :=
  (-Complex.I * tau) • ((normFutures props).getD i 0 * h.getD j 0 * fwd.getD i 0)

/-- The shape of the product of a `(1, T, C)` array with a vector of `n` entries, numpy's broadcasting. -/
def timesVector (T C n : Nat) : Except PyErr (Nat × Nat × Nat) :=
  if C = n ∨ n = 1 then .ok (1, T, C) else if C = 1 then .ok (1, T, n) else .error .valueError

/-- Numpy's broadcasting of one axis. -/
def axis (a b : Nat) : Except PyErr Nat := if a = b ∨ b = 1 then .ok a else if a = 1 then .ok b else .error .valueError

/-- The shape of `jacobian_complex_full - 1j * dphi_by_du_times_u`, cost_functions.py:390-396, for a `D × D` propagator: the rows of the
propagator (not its entries, `final.flatten()` in line 388 has no effect) are multiplied with the derivatives of the phase and concatenated
along the first axis. -/
def fullShape (D T C : Nat) : Except PyErr (Nat × Nat × Nat) := do
  let (_, t, c) ← timesVector T C D
  let a ← axis (D ^ 2) D
  let b ← axis T t
  let e ← axis C c
  pure (a, b, e)

/-- `OperatorMatrixNorm.grad`, cost_functions.py:341-402, as the two halves (real and imaginary parts) of the entries `[component][time step][control]`.
`fwd` are the forward propagators with the initial state first.  Where the shapes fit there is one component (`fullShape`), which is the only
one computed here. -/
noncomputable def normGrad (mode : NormMode) (times : NormTimes) (h props fwd : List (Matrix (Fin (d + 1)) (Fin (d + 1)) ℂ)) :
    Except PyErr (List (Nat → Nat → ℝ)) :=
  match mode with
  | .vector =>
    if props = [] then .error .indexError else
    match times with
    | .array _ => .error .notImplementedError
    | .number _ => .error .typeError
    | .list [] => .error .indexError
    | .list (tau :: t) =>
      match fullShape (d + 1) (tau :: t).length h.length with
      | .error e => .error e
      | .ok _ =>
        let u := (fwd.getLastD 0) 0 0
        let J := fun i j => stepJac tau h props fwd i j 0 0
        let dphi := fun i j => ((J i j).im * u.re - (J i j).re * u.im) / ‖u‖ ^ 2
        let full := fun i j => (J i j - Complex.I * (dphi i j : ℂ) * u) * (1 / (u / (‖u‖ : ℂ)))
        .ok [fun i j => (full i j).re, fun i j => (full i j).im]
  | _ => .error .notImplementedError

/-- **C141** (partial) In every mode other than 'vector' the documented NotImplementedError is raised, whatever the solver and its pulse. -/
theorem c141_modes_partial (mode : NormMode) (hm : mode ≠ .vector) (times : NormTimes) (h props fwd : List (Matrix (Fin (d + 1)) (Fin (d + 1)) ℂ)) :
    normGrad mode times h props fwd = .error .notImplementedError := by
  cases mode <;> first | rfl | exact absurd rfl hm

/-- **C141** (violated) In the mode 'vector' too, for every solver whose durations are an array, which is what `Solver.set_times` stores. -/
theorem c141_violated_array (t : List ℝ) (h props fwd : List (Matrix (Fin (d + 1)) (Fin (d + 1)) ℂ)) (hp : props ≠ []) :
    normGrad .vector (.array t) h props fwd = .error .notImplementedError := by
  simp [normGrad, hp]

theorem fullShape_error (D T C : Nat) (hD : 2 ≤ D) : fullShape D T C = .error .valueError := by
  have h1 : axis (D ^ 2) D = .error .valueError := by
    unfold axis
    have a : D ^ 2 ≠ D := by nlinarith
    have b : D ≠ 1 := by omega
    have c : D ^ 2 ≠ 1 := by nlinarith
    rw [if_neg (by simp [a, b]), if_neg c]
  unfold fullShape
  rcases h : timesVector T C D with e | ⟨a, t, c⟩
  · have : e = .valueError := by
      unfold timesVector at h
      split at h
      · cases h
      · split at h
        · cases h
        · cases h; rfl
    subst this
    rfl
  · show (do let a ← axis (D ^ 2) D; let b ← axis T t; let e ← axis C c; pure (a, b, e) : Except PyErr (Nat × Nat × Nat)) = _
    rw [h1]
    rfl

/-- **C141** (violated) With a list of durations and two or more levels a ValueError is raised, for all numbers of steps and controls. -/
theorem c141_violated_list (hd : 1 ≤ d) (tau : ℝ) (t : List ℝ) (h props fwd : List (Matrix (Fin (d + 1)) (Fin (d + 1)) ℂ)) (hp : props ≠ []) :
    normGrad .vector (.list (tau :: t)) h props fwd = .error .valueError := by
  simp only [normGrad, hp, if_false]
  rw [fullShape_error _ _ _ (by omega)]

end

/-- Examples: a qubit with the bit flip as control, two steps; the modes, an array and a list of durations. -/
example : normGrad .scalar (.array [1, 2]) [!![0, 1; 1, 0]] [1, !![0, 1; 1, 0]] [1, 1, !![0, 1; 1, 0]] = .error .notImplementedError :=
  c141_modes_partial .scalar (by simp) _ _ _ _

example : normGrad .vector (.array [1, 2]) [!![0, 1; 1, 0]] [1, !![0, 1; 1, 0]] [1, 1, !![0, 1; 1, 0]] = .error .notImplementedError :=
  c141_violated_array _ _ _ _ (by simp)

example : normGrad .vector (.list [1, 2]) [!![0, 1; 1, 0]] [1, !![0, 1; 1, 0]] [1, 1, !![0, 1; 1, 0]] = .error .valueError :=
  c141_violated_list le_rfl _ _ _ _ _ (by simp)

/-- One level, one control and one step of unit duration: the propagator. -/
noncomputable def turn (u : ℝ) : Matrix (Fin 1) (Fin 1) ℂ := fun _ _ => Complex.exp (-Complex.I * u)

/-- It solves the Schroedinger equation of the Hamiltonian `u`. -/
theorem turn_exp (u : ℝ) : NormedSpace.exp ((-Complex.I * u) • (1 : Matrix (Fin 1) (Fin 1) ℂ)) = turn u := by
  have h : ((-Complex.I * u) • (1 : Matrix (Fin 1) (Fin 1) ℂ)) = diagonal fun _ => -Complex.I * u := by
    ext i j
    rw [Subsingleton.elim j i]
    simp
  rw [h, Matrix.exp_diagonal]
  ext i j
  rw [Subsingleton.elim j i, diagonal_apply_eq, Pi.coe_exp]
  show _ = Complex.exp _
  rw [Complex.exp_eq_exp_ℂ]

/-- **C141** (violated) With a single level the costs do not depend on the pulse at all, but the returned gradient of the real part is
`sin u`. -/
theorem c141_violated_single (target : Matrix (Fin 1) (Fin 1) ℂ) : ∃ c : ℝ → List ℝ,
    (∀ u, normCosts true target (turn u) = .ok (c u)) ∧ (∀ u k, HasDerivAt (fun v => (c v).getD k 0) 0 u) ∧
    ∀ u, ∃ G, normGrad .vector (.list [1]) [1] [turn u] [1, turn u] = .ok G ∧ (G.getD 0 0) 0 0 = Real.sin u := by
  have hn : ∀ u, ‖turn u 0 0‖ = 1 := fun u => by
    rw [turn, Complex.norm_exp]; simp
  have hne : ∀ u, turn u 0 0 ≠ 0 := fun u => by
    rw [← norm_ne_zero_iff, hn]; norm_num
  have hc : ∀ u, normCosts true target (turn u) = .ok [(1 - target 0 0).re, (1 - target 0 0).im] := by
    intro u
    simp only [normCosts, phaseDiff]
    rw [if_neg (by rw [hn]; norm_num)]
    have : (1 / (turn u 0 0 / ((‖turn u 0 0‖ : ℝ) : ℂ))) • turn u = 1 := by
      ext i j
      rw [Subsingleton.elim i 0, Subsingleton.elim j 0, Matrix.smul_apply, hn]
      have := hne u
      simp [this]
    rw [this]
    simp [flat, List.finRange]
  refine ⟨fun _ => [(1 - target 0 0).re, (1 - target 0 0).im], hc, fun u k => hasDerivAt_const _ _, fun u => ?_⟩
  have hJ : (stepJac 1 [1] [turn u] [1, turn u] 0 0 : Matrix (Fin 1) (Fin 1) ℂ) 0 0 = -Complex.I := by
    simp [stepJac, normFutures]
  refine ⟨_, by simp only [normGrad, fullShape, timesVector, axis]; rfl, ?_⟩
  show ((stepJac 1 [1] [turn u] [1, turn u] 0 0 0 0 - Complex.I * (((((stepJac 1 [1] [turn u] [1, turn u] 0 0 0 0).im * (turn u 0 0).re
    - (stepJac 1 [1] [turn u] [1, turn u] 0 0 0 0).re * (turn u 0 0).im) / ‖turn u 0 0‖ ^ 2 : ℝ)) : ℂ) * turn u 0 0) *
      (1 / (turn u 0 0 / ((‖turn u 0 0‖ : ℝ) : ℂ)))).re = _
  rw [hJ, hn]
  have ht : turn u 0 0 = Real.cos u - Real.sin u * Complex.I := by
    rw [turn, show -Complex.I * (u : ℂ) = ((-u : ℝ) : ℂ) * Complex.I by push_cast; ring, Complex.exp_mul_I]
    push_cast
    rw [Complex.cos_neg, Complex.sin_neg]
    ring
  have hi : (1 / (turn u 0 0 / ((1 : ℝ) : ℂ))) = Real.cos u + Real.sin u * Complex.I := by
    rw [Complex.ofReal_one, div_one, one_div]
    refine inv_eq_of_mul_eq_one_right ?_
    rw [ht]
    have := Complex.sin_sq_add_cos_sq (u : ℂ)
    push_cast
    linear_combination this - (Complex.sin u) ^ 2 * Complex.I_sq
  rw [hi, ht]
  simp [Complex.cos_ofReal_re, Complex.sin_ofReal_re, Complex.cos_ofReal_im, Complex.sin_ofReal_im]
  ring

example : ∃ G, normGrad .vector (.list [1]) [1] [turn 1] [1, turn 1] = .ok G ∧ (G.getD 0 0) 0 0 ≠ 0 := by
  obtain ⟨c, -, -, h⟩ := c141_violated_single 1
  obtain ⟨G, h1, h2⟩ := h 1
  exact ⟨G, h1, by rw [h2]; exact (Real.sin_pos_of_pos_of_lt_pi one_pos (by linarith [Real.two_le_pi])).ne'⟩

end Verif.Cost
