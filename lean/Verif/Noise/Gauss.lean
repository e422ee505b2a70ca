import Verif.Noise.Model
import Verif.Noise.Erf
import Mathlib.Algebra.BigOperators.Group.List.Basic
import Mathlib.Algebra.BigOperators.Ring.List
import Mathlib.Tactic.FieldSimp
import Mathlib.Tactic.Linarith
import Mathlib.MeasureTheory.Integral.Prod

/-! # C72 and C75: Gaussian samples and bell curves -/

namespace Verif.Noise
open Verif Real MeasureTheory

/-- The argument of `erfinv` for sample `i` of `n`. -/
noncomputable def pt (n i : Nat) : ℝ := (2 * i + 1) / n - 1

theorem pt_gt {n i : Nat} (hn : 0 < n) : -1 < pt n i := by
  have : (0 : ℝ) < n := by exact_mod_cast hn
  unfold pt
  have : 0 < (2 * (i : ℝ) + 1) / n := by positivity
  linarith

theorem pt_lt {n i : Nat} (hi : i < n) : pt n i < 1 := by
  have hn : (0 : ℝ) < n := by exact_mod_cast Nat.lt_of_le_of_lt (Nat.zero_le _) hi
  have h2 : ((i : ℝ) + 1) ≤ n := by exact_mod_cast hi
  unfold pt
  have : (2 * (i : ℝ) + 1) / n < 2 := by rw [div_lt_iff₀ hn]; linarith
  linarith

theorem pt_mono {n i j : Nat} (hn : 0 < n) (h : i < j) : pt n i < pt n j := by
  have hn : (0 : ℝ) < n := by exact_mod_cast hn
  have h2 : (i : ℝ) < j := by exact_mod_cast h
  unfold pt
  have : (2 * (i : ℝ) + 1) / n < (2 * (j : ℝ) + 1) / n := by
    apply div_lt_div_of_pos_right _ hn; linarith
  linarith

theorem pt_refl {n i : Nat} (hi : i < n) : pt n (n - 1 - i) = -pt n i := by
  have hn : (n : ℝ) ≠ 0 := by
    have : n ≠ 0 := by omega
    exact_mod_cast this
  have : ((n - 1 - i : Nat) : ℝ) = n - 1 - i := by
    rw [Nat.cast_sub (by omega), Nat.cast_sub (by omega)]; simp
  unfold pt
  rw [this]
  field_simp
  ring

/-- The samples, written with their arguments. -/
theorem sample1dim_eq (e : ℝ → ℝ) (std mean : ℝ) (n : Nat) (hn : 0 < n) :
    sample1dim e std n mean = .ok ((List.range n).map fun i => std * √2 * e (pt n i) + mean) := by
  unfold sample1dim
  rw [if_neg (by omega)]
  simp only [linspaceOpen, List.map_map]
  congr 1
  refine List.map_congr_left fun i _ => ?_
  have hn : (n : ℝ) ≠ 0 := by
    have : n ≠ 0 := by omega
    exact_mod_cast this
  simp only [Function.comp_apply, inverseCumulative]
  congr 3
  unfold pt
  field_simp

theorem sum_map_range_rev (f : Nat → ℝ) (n : Nat) : ((List.range n).map fun i => f (n - 1 - i)).sum = ((List.range n).map f).sum := by
  have h : (List.range n).map (fun i => f (n - 1 - i)) = ((List.range n).map f).reverse := by
    refine List.ext_getElem (by simp) fun k h1 h2 => ?_
    simp at h1
    simp
  rw [h, List.sum_reverse]

/-- The unit samples sum to zero. -/
theorem sum_erfinv {e : ℝ → ℝ} (he : IsErfinv e) (n : Nat) : ((List.range n).map fun i => e (pt n i)).sum = 0 := by
  have h1 := sum_map_range_rev (fun i => e (pt n i)) n
  have h2 : (List.range n).map (fun i => e (pt n (n - 1 - i))) = (List.range n).map fun i => -e (pt n i) := by
    refine List.map_congr_left fun i hi => ?_
    have hi : i < n := by simpa using hi
    rw [pt_refl hi, he.odd (pt_gt (by omega)) (pt_lt hi)]
  have h3 : ((List.range n).map fun i => -e (pt n i)).sum = -((List.range n).map fun i => e (pt n i)).sum := by
    generalize List.range n = l
    induction l with
    | nil => simp
    | cons x l ih => simp only [List.map_cons, List.sum_cons, ih]; ring
  rw [h2, h3] at h1
  linarith

theorem sum_affine (f : Nat → ℝ) (a b : ℝ) (l : List Nat) : (l.map fun i => a * f i + b).sum = a * (l.map f).sum + l.length * b := by
  induction l with
  | nil => simp
  | cons x l ih => simp only [List.map_cons, List.sum_cons, ih, List.length_cons]; push_cast; ring

/-- **C72**: the deterministic samples: their number, their order, their symmetry about the mean, and their average. -/
theorem c72_samples {e : ℝ → ℝ} (he : IsErfinv e) (std mean : ℝ) (n : Nat) (hn : 0 < n) :
    ∃ l, sample1dim e std n mean = .ok l ∧ l.length = n ∧ (0 < std → l.Pairwise (· < ·)) ∧
      (∀ (i : Nat) (x x' : ℝ), l[i]? = some x → l[n - 1 - i]? = some x' → x - mean = -(x' - mean)) ∧
      l.sum / n = mean := by
  refine ⟨_, sample1dim_eq e std mean n hn, by simp, ?_, ?_, ?_⟩
  · intro hs
    refine List.pairwise_iff_getElem.2 fun i j hi hj hij => ?_
    simp only [List.length_map, List.length_range] at hi hj
    simp only [List.getElem_map, List.getElem_range]
    have := he.lt (pt_gt (i := i) hn) (pt_lt hj) (pt_mono hn hij)
    have h2 : 0 < std * √2 := by positivity
    nlinarith
  · intro i x x' hx hx'
    have hi : i < n := by
      have := (List.getElem?_eq_some_iff.1 hx).1
      simpa using this
    rw [List.getElem?_map, List.getElem?_range hi] at hx
    rw [List.getElem?_map, List.getElem?_range (by omega)] at hx'
    simp only [Option.map_some, Option.some.injEq] at hx hx'
    rw [← hx, ← hx', pt_refl hi, he.odd (pt_gt hn) (pt_lt hi)]
    ring
  · rw [sum_affine, sum_erfinv he]
    have : (n : ℝ) ≠ 0 := by
      have : n ≠ 0 := by omega
      exact_mod_cast this
    simp
    field_simp

/-- **C72**: the deviations from the mean are proportional to `std` and do not depend on the mean. -/
theorem c72_scaling (e : ℝ → ℝ) (std mean c shift : ℝ) (n : Nat) :
    sample1dim e (c * std) n (mean + shift) =
      (sample1dim e std n mean).map fun l => l.map fun x => c * (x - mean) + mean + shift := by
  by_cases hn : n = 0
  · subst hn; rfl
  · rw [sample1dim_eq _ _ _ _ (by omega), sample1dim_eq _ _ _ _ (by omega)]
    simp only [Except.map, List.map_map]
    congr 1
    refine List.map_congr_left fun i _ => ?_
    simp only [Function.comp_apply]
    ring

/-- Specification: the density of the normal distribution. -/
noncomputable def normalDensity (std mean x : ℝ) : ℝ := 1 / (std * √(2 * π)) * exp (-(x - mean) ^ 2 / (2 * std ^ 2))

theorem density_integral (std mean a b : ℝ) (hs : 0 < std) :
    ∫ x in (std * √2 * a + mean)..(std * √2 * b + mean), normalDensity std mean x = (erf b - erf a) / 2 := by
  have h2 : √2 ≠ 0 := by positivity
  have hc : std * √2 ≠ 0 := by positivity
  have h := intervalIntegral.integral_comp_mul_add (a := a) (b := b) (fun x => normalDensity std mean x) hc mean
  have hv : ∀ t : ℝ, normalDensity std mean (std * √2 * t + mean) = 1 / (std * √(2 * π)) * exp (-t ^ 2) := by
    intro t
    unfold normalDensity
    congr 2
    have hq : √2 ^ 2 = (2 : ℝ) := Real.sq_sqrt (by norm_num)
    field_simp
    linear_combination (-(std ^ 2 * t ^ 2)) * hq
  simp only [hv, intervalIntegral.integral_const_mul] at h
  have hadd : erf b - erf a = 2 / √π * ∫ t in a..b, exp (-t ^ 2) := by
    unfold erf
    rw [← mul_sub, intervalIntegral.integral_interval_sub_left (cont_gauss.intervalIntegrable _ _) (cont_gauss.intervalIntegrable _ _)]
  rw [hadd]
  have h3 : (∫ x in (std * √2 * a + mean)..(std * √2 * b + mean), normalDensity std mean x) =
      (std * √2) * (1 / (std * √(2 * π)) * ∫ t in a..b, exp (-t ^ 2)) := by
    rw [h, smul_eq_mul]
    field_simp
  rw [h3, Real.sqrt_mul (by norm_num) π]
  have hpi : √π ≠ 0 := by positivity
  field_simp

/-- **C72** (the remark in the code): between two adjacent samples lies the `n`-th part of the normal distribution. -/
theorem c72_equal_parts {e : ℝ → ℝ} (he : IsErfinv e) (std mean : ℝ) (hs : 0 < std) (n : Nat) (l : List ℝ)
    (h : sample1dim e std n mean = .ok l) (i : Nat) (x x' : ℝ) (hx : l[i]? = some x) (hx' : l[i + 1]? = some x') :
    ∫ t in x..x', normalDensity std mean t = 1 / n := by
  have hn : 0 < n := by
    by_contra h0
    have : n = 0 := by omega
    subst this
    simp [sample1dim] at h
  rw [sample1dim_eq e std mean n hn] at h
  cases h
  have hi : i + 1 < n := by
    have := (List.getElem?_eq_some_iff.1 hx').1
    simpa using this
  rw [List.getElem?_map, List.getElem?_range (by omega)] at hx
  rw [List.getElem?_map, List.getElem?_range (by omega)] at hx'
  simp only [Option.map_some, Option.some.injEq] at hx hx'
  rw [← hx, ← hx', density_integral std mean _ _ hs, he _ (pt_gt hn) (pt_lt (by omega)), he _ (pt_gt hn) (pt_lt (by omega))]
  have : (n : ℝ) ≠ 0 := by
    have : n ≠ 0 := by omega
    exact_mod_cast this
  unfold pt
  push_cast
  field_simp
  ring

/-- The only error. -/
theorem c72_zero (e : ℝ → ℝ) (std mean : ℝ) (n : Nat) : (∃ err, sample1dim e std n mean = .error err) ↔ n = 0 := by
  constructor
  · rintro ⟨err, h⟩
    by_contra hn
    rw [sample1dim_eq e std mean n (by omega)] at h
    cases h
  · rintro rfl; exact ⟨_, rfl⟩

/-- The hypotheses are met: three samples with unit deviation; the middle one is the mean and the outer ones differ from it. -/
example : ∃ e, IsErfinv e ∧ ∃ l, sample1dim e 1 3 5 = .ok l ∧ l[1]? = some 5 ∧ l[2]? ≠ some 5 := by
  obtain ⟨e, he⟩ := exists_erfinv
  refine ⟨e, he, _, sample1dim_eq e 1 5 3 (by norm_num), ?_, ?_⟩
  · simp [pt, List.range_succ]
    have : (2 + 1 : ℝ) / 3 - 1 = 0 := by norm_num
    rw [this, he.zero]
  · have h1 : e 0 < e (pt 3 2) := he.lt (by norm_num) (pt_lt (by norm_num)) (by norm_num [pt])
    rw [he.zero] at h1
    simp [List.range_succ]
    exact h1.ne'

/-! ## C75 -/

theorem gauss_int {std : ℝ} (hs : 0 < std) : ∫ x : ℝ, exp (-(1 / 2) * (x / std) ^ 2) = std * √(2 * π) := by
  have h := integral_gaussian (1 / (2 * std ^ 2))
  have hf : (fun x : ℝ => exp (-(1 / 2) * (x / std) ^ 2)) = fun x => exp (-(1 / (2 * std ^ 2)) * x ^ 2) := by
    funext x
    congr 1
    field_simp
  rw [hf, h]
  have : π / (1 / (2 * std ^ 2)) = std ^ 2 * (2 * π) := by field_simp
  rw [this, Real.sqrt_mul (by positivity), Real.sqrt_sq hs.le]

/-- **C75** (partial): the two-dimensional bell curve integrates to one.  Missing: the one-dimensional curve, see `c75_violated`. -/
theorem c75_two_dim_partial {stdx stdy : ℝ} (hx : 0 < stdx) (hy : 0 < stdy) : ∫ x : ℝ, ∫ y : ℝ, bell2 x stdx y stdy = 1 := by
  have hprod : ∀ x y : ℝ, bell2 x stdx y stdy =
      1 / 2 / π / stdx / stdy * exp (-(1 / 2) * (x / stdx) ^ 2) * exp (-(1 / 2) * (y / stdy) ^ 2) := by
    intro x y
    unfold bell2
    simp only
    rw [mul_assoc, ← Real.exp_add]
    congr 2
    ring
  simp only [hprod, integral_const_mul, gauss_int hy, integral_mul_const, gauss_int hx]
  have hp : √(2 * π) * √(2 * π) = 2 * π := Real.mul_self_sqrt (by positivity)
  have : (1 / 2 / π / stdx / stdy) * (stdx * √(2 * π)) * (stdy * √(2 * π)) = √(2 * π) * √(2 * π) / (2 * π) := by field_simp
  rw [this, hp]
  field_simp

/-- The same as an integral over the plane. -/
theorem c75_two_dim_plane_partial {stdx stdy : ℝ} (hx : 0 < stdx) (hy : 0 < stdy) :
    ∫ p : ℝ × ℝ, bell2 p.1 stdx p.2 stdy = 1 := by
  have hprod : (fun p : ℝ × ℝ => bell2 p.1 stdx p.2 stdy) = fun p : ℝ × ℝ =>
      (1 / 2 / π / stdx / stdy * exp (-(1 / 2) * (p.1 / stdx) ^ 2)) * exp (-(1 / 2) * (p.2 / stdy) ^ 2) := by
    funext p
    unfold bell2
    simp only
    rw [mul_assoc, ← Real.exp_add]
    congr 2
    ring
  rw [hprod, Measure.volume_eq_prod, integral_prod_mul (fun x : ℝ => 1 / 2 / π / stdx / stdy * exp (-(1 / 2) * (x / stdx) ^ 2))
    fun y : ℝ => exp (-(1 / 2) * (y / stdy) ^ 2)]
  rw [integral_const_mul, gauss_int hx, gauss_int hy]
  have hp : √(2 * π) * √(2 * π) = 2 * π := Real.mul_self_sqrt (by positivity)
  have : (1 / 2 / π / stdx / stdy) * (stdx * √(2 * π)) * (stdy * √(2 * π)) = √(2 * π) * √(2 * π) / (2 * π) := by field_simp
  rw [this, hp]
  field_simp

/-- The one-dimensional bell curve integrates to `1 / √(2 π)` for every standard deviation ... -/
theorem c75_one_dim_value {std : ℝ} (hs : 0 < std) : ∫ x : ℝ, bell1 x std = 1 / √(2 * π) := by
  unfold bell1
  simp only
  rw [integral_const_mul, gauss_int hs]
  have hp : √(2 * π) ^ 2 = 2 * π := Real.sq_sqrt (by positivity)
  have hne : √(2 * π) ≠ 0 := by positivity
  field_simp
  exact hp

/-- ... so **C75** fails for every standard deviation. -/
theorem c75_violated {std : ℝ} (hs : 0 < std) : ∫ x : ℝ, bell1 x std ≠ 1 := by
  rw [c75_one_dim_value hs]
  intro h
  have hne : √(2 * π) ≠ 0 := by positivity
  have h1 : √(2 * π) = 1 := by field_simp at h; linarith
  have hp : √(2 * π) ^ 2 = 2 * π := Real.sq_sqrt (by positivity)
  rw [h1] at hp
  have := Real.two_le_pi
  linarith

/-- The hypotheses hold for unit deviations; the curve is positive at the origin. -/
example : (0 : ℝ) < 1 ∧ 0 < bell1 0 1 ∧ 0 < bell2 0 1 0 2 := by
  have := Real.pi_pos
  refine ⟨one_pos, ?_, ?_⟩ <;> · simp only [bell1, bell2]; positivity

end Verif.Noise
