import Mathlib.Analysis.SpecialFunctions.Exponential
import Mathlib.MeasureTheory.Integral.DominatedConvergence
import Mathlib.MeasureTheory.Integral.IntervalIntegral.FundThmCalculus
import Mathlib.Analysis.Calculus.Deriv.Slope
import Mathlib.Analysis.Calculus.Deriv.Mul
import Mathlib.Analysis.Complex.Basic
import Mathlib.Tactic.NoncommRing

/-!
# Derivative of the exponential in a Banach algebra (Duhamel's formula)

Used as specification side mathematics for the derivatives computed by the code.
-/

namespace Verif.Operator
open NormedSpace intervalIntegral MeasureTheory

variable {𝔸 : Type} [NormedRing 𝔸] [NormedAlgebra ℝ 𝔸] [CompleteSpace 𝔸]

theorem exp_sub_exp (A B : 𝔸) :
    exp B - exp A = ∫ s in (0 : ℝ)..1, exp ((1 - s) • A) * (B - A) * exp (s • B) := by
  letI : NormedAlgebra ℚ 𝔸 := NormedAlgebra.restrictScalars ℚ ℝ 𝔸
  have hexp : Continuous (exp : 𝔸 → 𝔸) := exp_continuous
  have h : ∀ s ∈ Set.uIcc (0 : ℝ) 1, HasDerivAt (fun s : ℝ => exp ((1 - s) • A) * exp (s • B))
      (exp ((1 - s) • A) * (B - A) * exp (s • B)) s := by
    intro s _
    have h1 : HasDerivAt (fun s : ℝ => exp ((1 - s) • A)) (-(exp ((1 - s) • A) * A)) s := by
      have h2 := (hasDerivAt_exp_smul_const A (1 - s : ℝ)).scomp s ((hasDerivAt_id s).const_sub 1)
      simpa [Function.comp_def] using h2
    have h2 : HasDerivAt (fun s : ℝ => exp (s • B)) (B * exp (s • B)) s := hasDerivAt_exp_smul_const' B s
    have h3 := h1.fun_mul h2
    convert h3 using 1
    noncomm_ring
  have hint : IntervalIntegrable (fun s : ℝ => exp ((1 - s) • A) * (B - A) * exp (s • B)) volume 0 1 :=
    (Continuous.intervalIntegrable (by fun_prop) 0 1)
  rw [integral_eq_sub_of_hasDerivAt h hint]
  simp

/-- Duhamel's formula. -/
theorem hasDerivAt_exp_line (A D : 𝔸) :
    HasDerivAt (fun x : ℝ => exp (A + x • D))
      (∫ s in (0 : ℝ)..1, exp ((1 - s) • A) * D * exp (s • A)) 0 := by
  letI : NormedAlgebra ℚ 𝔸 := NormedAlgebra.restrictScalars ℚ ℝ 𝔸
  have hexp : Continuous (exp : 𝔸 → 𝔸) := exp_continuous
  set Φ : ℝ → 𝔸 := fun x => ∫ s in (0 : ℝ)..1, exp ((1 - s) • A) * D * exp (s • (A + x • D)) with hΦ
  have hΦc : Continuous Φ :=
    continuous_parametric_intervalIntegral_of_continuous' (by fun_prop) 0 1
  have hf : ∀ x : ℝ, exp (A + x • D) = exp A + x • Φ x := by
    intro x
    have := exp_sub_exp A (A + x • D)
    rw [sub_eq_iff_eq_add'] at this
    rw [this, hΦ]
    simp only
    rw [← intervalIntegral.integral_smul]
    simp
  rw [hasDerivAt_iff_tendsto_slope]
  have h0 : Φ 0 = ∫ s in (0 : ℝ)..1, exp ((1 - s) • A) * D * exp (s • A) := by simp [hΦ]
  rw [← h0]
  have ht : Filter.Tendsto Φ (nhdsWithin 0 {0}ᶜ) (nhds (Φ 0)) := (hΦc.tendsto 0).mono_left nhdsWithin_le_nhds
  refine ht.congr' ?_
  filter_upwards [self_mem_nhdsWithin] with x hx
  rw [slope_def_module, hf x, hf 0]
  simp only [zero_smul, add_zero, sub_zero, add_sub_cancel_left]
  rw [smul_smul, inv_mul_cancel₀ hx, one_smul]

end Verif.Operator
