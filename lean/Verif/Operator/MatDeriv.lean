import Mathlib.Analysis.Calculus.Deriv.Prod
import Mathlib.Analysis.Calculus.Deriv.Mul
import Mathlib.Analysis.Calculus.Deriv.Add
import Mathlib.Analysis.Calculus.Deriv.Star
import Mathlib.Analysis.Complex.RealDeriv
import Mathlib.Analysis.Matrix.Normed
import Mathlib.LinearAlgebra.Matrix.ConjTranspose
import Mathlib.LinearAlgebra.Matrix.Trace

/-!
# Entrywise derivatives of matrix valued functions of a real variable

Specification vocabulary for gradients: `MatDeriv F F' x` says that every entry of `F` is differentiable at
`x` with derivative the entry of `F'`.
-/

namespace Verif.Operator
open Matrix

variable {l m n : Type}

/-- Every entry of `F` has at `x` the derivative given by `F'`. -/
def MatDeriv (F : ℝ → Matrix m n ℂ) (F' : Matrix m n ℂ) (x : ℝ) : Prop :=
  ∀ i j, HasDerivAt (fun x => F x i j) (F' i j) x

namespace MatDeriv

theorem const (A : Matrix m n ℂ) (x : ℝ) : MatDeriv (fun _ => A) 0 x := fun i j => hasDerivAt_const x (A i j)

theorem add {F G : ℝ → Matrix m n ℂ} {F' G' : Matrix m n ℂ} {x : ℝ} (hF : MatDeriv F F' x)
    (hG : MatDeriv G G' x) : MatDeriv (fun x => F x + G x) (F' + G') x := fun i j => (hF i j).add (hG i j)

theorem neg {F : ℝ → Matrix m n ℂ} {F' : Matrix m n ℂ} {x : ℝ} (hF : MatDeriv F F' x) :
    MatDeriv (fun x => -F x) (-F') x := fun i j => (hF i j).neg

theorem sub {F G : ℝ → Matrix m n ℂ} {F' G' : Matrix m n ℂ} {x : ℝ} (hF : MatDeriv F F' x)
    (hG : MatDeriv G G' x) : MatDeriv (fun x => F x - G x) (F' - G') x := fun i j => (hF i j).sub (hG i j)

theorem smul (c : ℂ) {F : ℝ → Matrix m n ℂ} {F' : Matrix m n ℂ} {x : ℝ} (hF : MatDeriv F F' x) :
    MatDeriv (fun x => c • F x) (c • F') x := fun i j => (hF i j).const_mul c

theorem mul [Fintype m] {F : ℝ → Matrix l m ℂ} {G : ℝ → Matrix m n ℂ} {F' : Matrix l m ℂ} {G' : Matrix m n ℂ}
    {x : ℝ} (hF : MatDeriv F F' x) (hG : MatDeriv G G' x) :
    MatDeriv (fun x => F x * G x) (F' * G x + F x * G') x := by
  intro i j
  simp only [Matrix.mul_apply, Matrix.add_apply]
  rw [← Finset.sum_add_distrib]
  exact HasDerivAt.fun_sum fun k _ => (hF i k).fun_mul (hG k j)

theorem const_mul [Fintype m] (A : Matrix l m ℂ) {G : ℝ → Matrix m n ℂ} {G' : Matrix m n ℂ}
    {x : ℝ} (hG : MatDeriv G G' x) : MatDeriv (fun x => A * G x) (A * G') x := by
  have := (const A x).mul hG
  rwa [Matrix.zero_mul, zero_add] at this

theorem mul_const [Fintype m] {F : ℝ → Matrix l m ℂ} {F' : Matrix l m ℂ} {x : ℝ} (hF : MatDeriv F F' x)
    (B : Matrix m n ℂ) : MatDeriv (fun x => F x * B) (F' * B) x := by
  have := hF.mul (const B x)
  rwa [Matrix.mul_zero, add_zero] at this

theorem transpose {F : ℝ → Matrix m n ℂ} {F' : Matrix m n ℂ} {x : ℝ} (hF : MatDeriv F F' x) :
    MatDeriv (fun x => (F x)ᵀ) F'ᵀ x := fun i j => hF j i

theorem conjTranspose {F : ℝ → Matrix m n ℂ} {F' : Matrix m n ℂ} {x : ℝ} (hF : MatDeriv F F' x) :
    MatDeriv (fun x => (F x)ᴴ) F'ᴴ x := fun i j => (hF j i).star

theorem trace [Fintype n] {F : ℝ → Matrix n n ℂ} {F' : Matrix n n ℂ} {x : ℝ} (hF : MatDeriv F F' x) :
    HasDerivAt (fun x => (F x).trace) F'.trace x := HasDerivAt.fun_sum fun i _ => hF i i

theorem unique {F : ℝ → Matrix m n ℂ} {F' F'' : Matrix m n ℂ} {x : ℝ} (h : MatDeriv F F' x)
    (h' : MatDeriv F F'' x) : F' = F'' := by
  ext i j
  exact (h i j).unique (h' i j)

theorem congr {F G : ℝ → Matrix m n ℂ} {F' G' : Matrix m n ℂ} {x : ℝ} (h : MatDeriv F F' x) (hf : ∀ x, F x = G x)
    (hd : F' = G') : MatDeriv G G' x := by
  have : F = G := funext hf
  rw [← this, ← hd]
  exact h

open scoped Matrix.Norms.Operator in
theorem of_hasDerivAt [Fintype m] [Fintype n] {F : ℝ → Matrix m n ℂ} {F' : Matrix m n ℂ} {x : ℝ}
    (h : HasDerivAt F F' x) : MatDeriv F F' x := by
  have h1 : HasDerivAt (fun x => (F x : m → n → ℂ)) (F' : m → n → ℂ) x := h
  exact fun i j => hasDerivAt_pi.mp (hasDerivAt_pi.mp h1 i) j

open scoped Matrix.Norms.Operator in
theorem hasDerivAt [Fintype m] [Fintype n] {F : ℝ → Matrix m n ℂ} {F' : Matrix m n ℂ} {x : ℝ}
    (h : MatDeriv F F' x) : HasDerivAt F F' x := by
  have h1 : HasDerivAt (fun x => (F x : m → n → ℂ)) (F' : m → n → ℂ) x :=
    hasDerivAt_pi.mpr fun i => hasDerivAt_pi.mpr fun j => h i j
  exact h1

end MatDeriv
end Verif.Operator
