import Mathlib.Analysis.SpecialFunctions.Gaussian.GaussianIntegral
import Mathlib.MeasureTheory.Integral.IntervalIntegral.FundThmCalculus
import Mathlib.MeasureTheory.Integral.IntegralEqImproper
import Mathlib.Analysis.Calculus.Deriv.MeanValue
import Mathlib.Analysis.Calculus.Deriv.Pow
import Mathlib.Topology.Order.IntermediateValue

/-!
# The error function and its inverse

`scipy.special.erfinv` is a parameter of the noise models with the contract `IsErfinv`.  This file shows that the contract can be
met, and what follows from it.
-/

namespace Verif.Noise
open Real MeasureTheory intervalIntegral Set

/-- The error function. -/
noncomputable def erf (x : ℝ) : ℝ := 2 / √π * ∫ t in (0 : ℝ)..x, exp (-t ^ 2)

/-- The contract of `scipy.special.erfinv`: the inverse of the error function on the open interval (-1, 1). -/
def IsErfinv (e : ℝ → ℝ) : Prop := ∀ y, -1 < y → y < 1 → erf (e y) = y

theorem cont_gauss : Continuous fun t : ℝ => exp (-t ^ 2) := by fun_prop

theorem two_div_sqrt_pi_pos : 0 < 2 / √π := by positivity

theorem erf_hasDerivAt (x : ℝ) : HasDerivAt erf (2 / √π * exp (-x ^ 2)) x :=
  (integral_hasDerivAt_right (cont_gauss.intervalIntegrable _ _) (cont_gauss.stronglyMeasurableAtFilter _ _)
    cont_gauss.continuousAt).const_mul _

theorem erf_strictMono : StrictMono erf := by
  refine strictMono_of_deriv_pos fun x => ?_
  rw [(erf_hasDerivAt x).deriv]
  exact mul_pos two_div_sqrt_pi_pos (exp_pos _)

theorem erf_continuous : Continuous erf :=
  continuous_iff_continuousAt.2 fun x => (erf_hasDerivAt x).continuousAt

theorem erf_zero : erf 0 = 0 := by simp [erf]

theorem erf_neg (x : ℝ) : erf (-x) = -erf x := by
  have h : ∫ t in (0 : ℝ)..(-x), exp (-t ^ 2) = -∫ t in (0 : ℝ)..x, exp (-t ^ 2) := by
    have h1 := intervalIntegral.integral_comp_neg (a := x) (b := 0) fun t : ℝ => exp (-t ^ 2)
    simp only [neg_zero, neg_sq] at h1
    rw [← h1, intervalIntegral.integral_symm]
  unfold erf
  rw [h]
  ring

theorem erf_tendsto : Filter.Tendsto erf Filter.atTop (nhds 1) := by
  have hint : IntegrableOn (fun t : ℝ => exp (-t ^ 2)) (Ioi 0) := by
    have := (integrable_exp_neg_mul_sq (b := 1) one_pos).integrableOn (s := Ioi (0 : ℝ))
    simpa using this
  have h := (intervalIntegral_tendsto_integral_Ioi 0 hint Filter.tendsto_id).const_mul (2 / √π)
  have hv : 2 / √π * ∫ t in Ioi (0 : ℝ), exp (-t ^ 2) = 1 := by
    have := integral_gaussian_Ioi 1
    simp only [neg_mul, one_mul, div_one] at this
    rw [this]
    have hpi : √π ≠ 0 := by positivity
    field_simp
  rw [hv] at h
  exact h

theorem erf_tendsto_neg : Filter.Tendsto erf Filter.atBot (nhds (-1)) := by
  have h := (erf_tendsto.comp Filter.tendsto_neg_atBot_atTop).neg
  refine h.congr fun x => ?_
  simp [erf_neg]

theorem erf_lt_one (x : ℝ) : erf x < 1 :=
  lt_of_lt_of_le (erf_strictMono (lt_add_one x)) (erf_strictMono.monotone.ge_of_tendsto erf_tendsto _)

theorem neg_one_lt_erf (x : ℝ) : -1 < erf x := by
  have := erf_lt_one (-x)
  rw [erf_neg] at this
  linarith

/-- The contract can be met. -/
theorem exists_erfinv : ∃ e, IsErfinv e := by
  have h : ∀ y : ℝ, ∃ x, -1 < y → y < 1 → erf x = y := by
    intro y
    by_cases hy : -1 < y ∧ y < 1
    · obtain ⟨a, ha⟩ := (erf_tendsto_neg.eventually (gt_mem_nhds hy.1)).exists
      obtain ⟨b, hb⟩ := (erf_tendsto.eventually (lt_mem_nhds hy.2)).exists
      obtain ⟨x, hx⟩ := mem_range_of_exists_le_of_exists_ge erf_continuous ⟨a, ha.le⟩ ⟨b, hb.le⟩
      exact ⟨x, fun _ _ => hx⟩
    · exact ⟨0, fun h1 h2 => absurd ⟨h1, h2⟩ hy⟩
  choose e he using h
  exact ⟨e, he⟩

theorem IsErfinv.unique {e e' : ℝ → ℝ} (h : IsErfinv e) (h' : IsErfinv e') {y : ℝ} (h1 : -1 < y) (h2 : y < 1) : e y = e' y :=
  erf_strictMono.injective (by rw [h y h1 h2, h' y h1 h2])

theorem IsErfinv.odd {e : ℝ → ℝ} (h : IsErfinv e) {y : ℝ} (h1 : -1 < y) (h2 : y < 1) : e (-y) = -e y :=
  erf_strictMono.injective (by rw [h (-y) (by linarith) (by linarith), erf_neg, h y h1 h2])

theorem IsErfinv.zero {e : ℝ → ℝ} (h : IsErfinv e) : e 0 = 0 :=
  erf_strictMono.injective (by rw [h 0 (by norm_num) (by norm_num), erf_zero])

theorem IsErfinv.lt {e : ℝ → ℝ} (h : IsErfinv e) {y y' : ℝ} (h1 : -1 < y) (h2 : y' < 1) (hlt : y < y') : e y < e y' :=
  erf_strictMono.lt_iff_lt.1 (by rw [h y h1 (by linarith), h y' (by linarith) h2]; exact hlt)

theorem mul_exp_sq_lt {x y : ℝ} (h : x < y) : x * exp (x ^ 2) < y * exp (y ^ 2) := by
  have hm : StrictMono fun x : ℝ => x * exp (x ^ 2) := by
    refine strictMono_of_deriv_pos fun x => ?_
    have hd : HasDerivAt (fun x : ℝ => x * exp (x ^ 2)) (1 * exp (x ^ 2) + x * (exp (x ^ 2) * (2 * x))) x := by
      have := (hasDerivAt_id x).fun_mul ((hasDerivAt_pow 2 x).exp)
      simpa using this
    rw [hd.deriv]
    have h1 := exp_pos (x ^ 2)
    nlinarith [sq_nonneg x]
  exact hm h

/-- The square of the inverse lies strictly above its tangents. -/
theorem tangent {x x0 : ℝ} (hne : x ≠ x0) : x0 ^ 2 + √π * (x0 * exp (x0 ^ 2)) * (erf x - erf x0) < x ^ 2 := by
  set K := √π * (x0 * exp (x0 ^ 2)) with hK
  have hd : ∀ u : ℝ, HasDerivAt (fun u : ℝ => u ^ 2 - K * erf u) (2 * u - K * (2 / √π * exp (-u ^ 2))) u := by
    intro u
    have := (hasDerivAt_pow 2 u).fun_sub ((erf_hasDerivAt u).const_mul K)
    simpa using this
  have hval : ∀ u : ℝ, 2 * u - K * (2 / √π * exp (-u ^ 2)) = 2 * exp (-u ^ 2) * (u * exp (u ^ 2) - x0 * exp (x0 ^ 2)) := by
    intro u
    have hpi : √π ≠ 0 := by positivity
    have he : exp (-u ^ 2) * exp (u ^ 2) = 1 := by rw [← Real.exp_add]; simp
    rw [hK]
    field_simp
    linear_combination u * (-he)
  have hc : Continuous fun u : ℝ => u ^ 2 - K * erf u := (continuous_pow 2).sub (continuous_const.mul erf_continuous)
  suffices h : x0 ^ 2 - K * erf x0 < x ^ 2 - K * erf x by linarith
  rcases lt_or_gt_of_ne hne with hlt | hlt
  · have ha : StrictAntiOn (fun u : ℝ => u ^ 2 - K * erf u) (Iic x0) := by
      refine strictAntiOn_of_deriv_neg (convex_Iic x0) hc.continuousOn fun u hu => ?_
      rw [interior_Iic] at hu
      rw [(hd u).deriv, hval]
      have := mul_exp_sq_lt hu
      have h1 := exp_pos (-u ^ 2)
      nlinarith
    exact ha hlt.le (le_refl x0) hlt
  · have ha : StrictMonoOn (fun u : ℝ => u ^ 2 - K * erf u) (Ici x0) := by
      refine strictMonoOn_of_deriv_pos (convex_Ici x0) hc.continuousOn fun u hu => ?_
      rw [interior_Ici] at hu
      rw [(hd u).deriv, hval]
      have := mul_exp_sq_lt hu
      have h1 := exp_pos (-u ^ 2)
      nlinarith
    exact ha (le_refl x0) hlt.le hlt

end Verif.Noise
