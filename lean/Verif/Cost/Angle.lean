import Verif.Cost.Fidelity
import Mathlib.Analysis.SpecialFunctions.Trigonometric.Inverse
import Mathlib.Tactic.FinCases
import Mathlib.Tactic.LinearCombination

/-!
# C53, C54: angle axis representation and average gate fidelity of one qubit

`np.isclose` is modelled with its tolerances, everything else is exact.
-/

namespace Verif.Cost
open Verif Verif.Operator Matrix

/-- `np.isclose(a, b, atol=atol)` with the default `rtol=1e-5`. -/
def isClose (a b : ℂ) (atol : ℝ) : Prop := ‖a - b‖ ≤ atol + 1 / 100000 * ‖b‖

/-- Default `atol` of `np.isclose`. -/
noncomputable def atol8 : ℝ := 1 / 100000000

open Classical in
/-- The phase, cost_functions.py:199-206: the first component which is not close to zero, divided by its modulus. -/
noncomputable def pickPhase (n1 n2 n3 : ℂ) : Option ℂ :=
  if ¬ isClose n1 0 atol8 then some (n1 / ‖n1‖)
  else if ¬ isClose n2 0 atol8 then some (n2 / ‖n2‖)
  else if ¬ isClose n3 0 atol8 then some (n3 / ‖n3‖)
  else none

open Classical in
/-- The last part, cost_functions.py:208-219. -/
noncomputable def finishAxis (alpha cosAlpha n1 n2 n3 : ℂ) : Except PyErr (ℝ × (ℝ × ℝ × ℝ)) :=
  let beta := Real.arccos (cosAlpha / alpha).re * 2
  let m1 := n1 / alpha
  let m2 := n2 / alpha
  let m3 := n3 / alpha
  if isClose (Real.sqrt (‖m1‖ ^ 2 + ‖m2‖ ^ 2 + ‖m3‖ ^ 2) : ℝ) 1 (1 / 100000) then
    if Real.pi < beta then .ok (2 * Real.pi - beta, ((-1 * m1).re, (-1 * m2).re, (-1 * m3).re))
    else .ok (beta, (m1.re, m2.re, m3.re))
  else .error .assertionError

open Classical in
/-- `angle_axis_representation`, cost_functions.py:162-219.  The test of unitarity looks at entry `[0, 0]` twice and never
at entry `[1, 1]`.  For `|cos_alpha| > 1` (only possible for matrices that are not unitary) the root is `nan`, all
comparisons are false and the assertion fails. -/
noncomputable def angleAxis (u : Matrix (Fin 2) (Fin 2) ℂ) : Except PyErr (ℝ × (ℝ × ℝ × ℝ)) :=
  let ident := u * uᴴ
  if isClose (ident 0 0) 1 atol8 ∧ isClose (ident 1 0) 0 atol8 ∧ isClose (ident 0 1) 0 atol8 ∧ isClose (ident 0 0) 1 atol8 then
    let cosAlpha := 1 / 2 * (u 0 0 + u 1 1)
    if 1 < ‖cosAlpha‖ then .error .assertionError
    else
      let sin := Real.sqrt (1 - ‖cosAlpha‖ ^ 2)
      if isClose 0 (sin : ℂ) (1 / 1000000) then .ok (0, (1, 0, 0))
      else
        let n1 := (u 0 1 + u 1 0) / Complex.I / sin / 2
        let n2 := (u 0 1 - u 1 0) / sin / 2
        let n3 := (u 0 0 - u 1 1) / Complex.I / sin / 2
        match pickPhase n1 n2 n3 with
        | some alpha => finishAxis alpha cosAlpha n1 n2 n3
        | none => .ok (0, (1, 0, 0))
  else .error .valueError

/-! ## Specification -/

/-- The rotation by `beta` about the axis `n`: `cos(beta/2) 1 + i sin(beta/2) (n1 X + n2 Y + n3 Z)`. -/
noncomputable def rotation (beta : ℝ) (n : ℝ × ℝ × ℝ) : Matrix (Fin 2) (Fin 2) ℂ :=
  (Real.cos (beta / 2) : ℂ) • 1 + (Complex.I * Real.sin (beta / 2)) •
    ((n.1 : ℂ) • !![0, 1; 1, 0] + (n.2.1 : ℂ) • !![0, -Complex.I; Complex.I, 0] + (n.2.2 : ℂ) • !![1, 0; 0, -1])

theorem sq_norm (z : ℂ) : ((‖z‖ ^ 2 : ℝ) : ℂ) = z * star z := by
  rw [← Complex.normSq_eq_norm_sq]
  exact (Complex.mul_conj z).symm

/-- A complex number equal to its conjugate is its real part. -/
theorem real_of_star {z : ℂ} (h : z = star z) : ((z.re : ℝ) : ℂ) = z :=
  Complex.conj_eq_iff_re.mp h.symm

/-- Decomposition of a unitary. -/
structure Decomp (c m1 m2 m3 : ℂ) : Prop where
  norm : ‖c‖ ^ 2 + ‖m1‖ ^ 2 + ‖m2‖ ^ 2 + ‖m3‖ ^ 2 = 1
  c1 : c * star m1 = star (c * star m1)
  c2 : c * star m2 = star (c * star m2)
  c3 : c * star m3 = star (c * star m3)
  h12 : m1 * star m2 = star (m1 * star m2)
  h13 : m1 * star m3 = star (m1 * star m3)
  h23 : m2 * star m3 = star (m2 * star m3)

theorem decomp (u : Matrix (Fin 2) (Fin 2) ℂ) (h : u * uᴴ = 1) (h' : uᴴ * u = 1) :
    Decomp (1 / 2 * (u 0 0 + u 1 1)) ((u 0 1 + u 1 0) / Complex.I / 2) ((u 0 1 - u 1 0) / 2)
      ((u 0 0 - u 1 1) / Complex.I / 2) := by
  have e : ∀ i j, (u * uᴴ) i j = u i 0 * star (u j 0) + u i 1 * star (u j 1) := by
    intro i j; rw [Matrix.mul_apply, Fin.sum_univ_two]; rfl
  have e' : ∀ i j, (uᴴ * u) i j = star (u 0 i) * u 0 j + star (u 1 i) * u 1 j := by
    intro i j; rw [Matrix.mul_apply, Fin.sum_univ_two]; rfl
  have a00 := e 0 0; have a01 := e 0 1; have a10 := e 1 0; have a11 := e 1 1
  have b00 := e' 0 0; have b01 := e' 0 1; have b10 := e' 1 0; have b11 := e' 1 1
  rw [h] at a00 a01 a10 a11
  rw [h'] at b00 b01 b10 b11
  simp only [Matrix.one_apply_eq, Matrix.one_apply_ne (show (0 : Fin 2) ≠ 1 by decide),
    Matrix.one_apply_ne (show (1 : Fin 2) ≠ 0 by decide)] at a00 a01 a10 a11 b00 b01 b10 b11
  generalize u 0 0 = p at *
  generalize u 0 1 = q at *
  generalize u 1 0 = r at *
  generalize u 1 1 = s at *
  have hI : ∀ z : ℂ, z / Complex.I = -(Complex.I * z) := by
    intro z
    rw [div_eq_iff Complex.I_ne_zero]
    linear_combination z * Complex.I_mul_I
  have hstarI : star Complex.I = -Complex.I := Complex.conj_I
  have h2 : star (2 : ℂ) = 2 := Complex.conj_ofNat 2
  refine ⟨?_, ?_, ?_, ?_, ?_, ?_, ?_⟩
  · have : ((‖1 / 2 * (p + s)‖ ^ 2 + ‖(q + r) / Complex.I / 2‖ ^ 2 + ‖(q - r) / 2‖ ^ 2 + ‖(p - s) / Complex.I / 2‖ ^ 2 : ℝ) : ℂ) = 1 := by
      rw [Complex.ofReal_add, Complex.ofReal_add, Complex.ofReal_add, sq_norm, sq_norm, sq_norm, sq_norm]
      simp only [hI, star_div₀, star_mul', star_neg, star_add, star_sub, hstarI, h2, star_one]
      linear_combination (-1/4 : ℂ) * a00 + (-1/4 : ℂ) * a11 + (-1/4 : ℂ) * b00 + (-1/4 : ℂ) * b11 + (-((q+r) * (star q + star r) + (p-s)*(star p - star s))/4) * Complex.I_mul_I
    exact_mod_cast this
  · simp only [hI, star_div₀, star_mul', star_neg, star_add, star_sub, hstarI, h2, star_one, star_star]
    linear_combination (-Complex.I / 4) * (a01 + a10 + b01 + b10)
  · simp only [hI, star_div₀, star_mul', star_neg, star_add, star_sub, hstarI, h2, star_one, star_star]
    linear_combination (1 / 4 : ℂ) * (a01 - a10 + b01 - b10)
  · simp only [hI, star_div₀, star_mul', star_neg, star_add, star_sub, hstarI, h2, star_one, star_star]
    linear_combination (-Complex.I / 2) * a00 + (Complex.I / 2) * b11
  · simp only [hI, star_div₀, star_mul', star_neg, star_add, star_sub, hstarI, h2, star_one, star_star]
    linear_combination (Complex.I / 2) * a00 - (Complex.I / 2) * b00
  · simp only [hI, star_div₀, star_mul', star_neg, star_add, star_sub, hstarI, h2, star_one, star_star]
    linear_combination (1 / 4 : ℂ) * (a01 - a10 - b01 + b10) -
      ((q + r) * (star p - star s) - (star q + star r) * (p - s)) / 4 * Complex.I_mul_I
  · simp only [hI, star_div₀, star_mul', star_neg, star_add, star_sub, hstarI, h2, star_one, star_star]
    linear_combination (Complex.I / 4) * (a01 + a10 - b01 - b10)

/-- What the last part of the function computes once the phase is known. -/
theorem finishAxis_spec {c m1 m2 m3 alpha : ℂ} {s : ℝ} (hs : 0 < s) (hs2 : s ^ 2 = 1 - ‖c‖ ^ 2)
    (hn : ‖c‖ ^ 2 + ‖m1‖ ^ 2 + ‖m2‖ ^ 2 + ‖m3‖ ^ 2 = 1) (ha : ‖alpha‖ = 1)
    (hc : c * star alpha = star (c * star alpha)) (h1 : m1 * star alpha = star (m1 * star alpha))
    (h2 : m2 * star alpha = star (m2 * star alpha)) (h3 : m3 * star alpha = star (m3 * star alpha)) :
    ∃ beta n, finishAxis alpha c (m1 / s) (m2 / s) (m3 / s) = .ok (beta, n) ∧ 0 ≤ beta ∧ beta ≤ Real.pi ∧
      n.1 ^ 2 + n.2.1 ^ 2 + n.2.2 ^ 2 = 1 ∧ ∃ z : ℂ, ‖z‖ = 1 ∧ z * Real.cos (beta / 2) = c ∧
        z * Real.sin (beta / 2) * n.1 = m1 ∧ z * Real.sin (beta / 2) * n.2.1 = m2 ∧ z * Real.sin (beta / 2) * n.2.2 = m3 := by
  have hs0 : (s : ℂ) ≠ 0 := by exact_mod_cast hs.ne'
  have haa : alpha * star alpha = 1 := by rw [← sq_norm, ha]; norm_num
  have ha0 : alpha ≠ 0 := by rintro rfl; simp at ha
  have hdiv : ∀ z : ℂ, z / alpha = z * star alpha := by
    intro z
    rw [div_eq_iff ha0, mul_assoc, mul_comm (star alpha), haa, mul_one]
  -- real parts
  set r := (c * star alpha).re with hr
  have hcr : c = alpha * r := by
    rw [hr, real_of_star hc]
    linear_combination (-c) * haa
  set k : ℂ → ℝ := fun m => (m / s / alpha).re with hk
  have hkm : ∀ m : ℂ, m * star alpha = star (m * star alpha) → ((k m : ℝ) : ℂ) = m / s / alpha ∧ m = alpha * s * k m := by
    intro m hm
    have e1 : m / s / alpha = m * star alpha / s := by rw [hdiv]; ring
    have e2 : ((k m : ℝ) : ℂ) = m / s / alpha := by
      rw [hk]
      simp only
      refine real_of_star ?_
      rw [e1, star_div₀, ← hm]
      congr 1
      exact (Complex.conj_ofReal s).symm
    refine ⟨e2, ?_⟩
    rw [e2]
    field_simp
  obtain ⟨f1, g1⟩ := hkm m1 h1
  obtain ⟨f2, g2⟩ := hkm m2 h2
  obtain ⟨f3, g3⟩ := hkm m3 h3
  have hnorm : ∀ m : ℂ, ‖m / s / alpha‖ ^ 2 = ‖m‖ ^ 2 / s ^ 2 := by
    intro m
    rw [norm_div, norm_div, ha, div_one, Complex.norm_real, Real.norm_eq_abs, abs_of_pos hs, div_pow]
  have hsum : ‖m1 / s / alpha‖ ^ 2 + ‖m2 / s / alpha‖ ^ 2 + ‖m3 / s / alpha‖ ^ 2 = 1 := by
    rw [hnorm, hnorm, hnorm, ← add_div, ← add_div, div_eq_one_iff_eq (by positivity)]
    linarith
  have hksum : k m1 ^ 2 + k m2 ^ 2 + k m3 ^ 2 = 1 := by
    have e : ∀ m : ℂ, ((k m : ℝ) : ℂ) = m / s / alpha → ‖m / s / alpha‖ ^ 2 = k m ^ 2 := by
      intro m hm
      rw [← hm, Complex.norm_real, Real.norm_eq_abs, sq_abs]
    rw [← e _ f1, ← e _ f2, ← e _ f3]
    exact hsum
  have hrc : r ^ 2 = ‖c‖ ^ 2 := by
    conv_rhs => rw [hcr]
    rw [norm_mul, ha, one_mul, Complex.norm_real, Real.norm_eq_abs, sq_abs]
  have hr1 : r ^ 2 < 1 := by rw [hrc]; nlinarith
  have hrl : -1 ≤ r := by nlinarith
  have hru : r ≤ 1 := by nlinarith
  have hbeta : Real.arccos (c / alpha).re * 2 / 2 = Real.arccos r := by rw [hdiv, ← hr]; ring
  have hcos : Real.cos (Real.arccos r) = r := Real.cos_arccos hrl hru
  have hsin : Real.sin (Real.arccos r) = s := by
    rw [Real.sin_arccos, hrc, ← hs2, Real.sqrt_sq hs.le]
  unfold finishAxis
  simp only
  rw [hsum, Real.sqrt_one, if_pos (by unfold isClose; norm_num)]
  by_cases hpi : Real.pi < Real.arccos (c / alpha).re * 2
  · rw [if_pos hpi]
    refine ⟨_, _, rfl, ?_, ?_, ?_, -alpha, by rw [norm_neg, ha], ?_, ?_, ?_, ?_⟩
    · have := Real.arccos_le_pi (c / alpha).re
      linarith
    · linarith
    · simp only [neg_mul, one_mul, Complex.neg_re, neg_sq]
      exact hksum
    all_goals
      rw [show (2 * Real.pi - Real.arccos (c / alpha).re * 2) / 2 = Real.pi - Real.arccos r by rw [← hbeta]; ring]
    · rw [Real.cos_pi_sub, hcos, hcr]
      push_cast
      ring
    all_goals
      rw [Real.sin_pi_sub, hsin]
      simp only [neg_mul, one_mul, Complex.neg_re, Complex.ofReal_neg, mul_neg, neg_neg]
    · exact g1.symm
    · exact g2.symm
    · exact g3.symm
  · rw [if_neg hpi]
    refine ⟨_, _, rfl, ?_, not_lt.mp hpi, hksum, alpha, ha, ?_, ?_, ?_, ?_⟩
    · have := Real.arccos_nonneg (c / alpha).re
      linarith
    · rw [hbeta, hcos]
      exact hcr.symm
    · rw [hbeta, hsin]; exact g1.symm
    · rw [hbeta, hsin]; exact g2.symm
    · rw [hbeta, hsin]; exact g3.symm

/-- The phase chosen from a component. -/
theorem phase_spec {m : ℂ} (hm : m ≠ 0) : ‖m / ‖m‖‖ = 1 ∧ ∀ z : ℂ, z * star m = star (z * star m) →
    z * star (m / ‖m‖) = star (z * star (m / ‖m‖)) := by
  have h0 : ‖m‖ ≠ 0 := norm_ne_zero_iff.mpr hm
  have hst : star ((‖m‖ : ℝ) : ℂ) = ((‖m‖ : ℝ) : ℂ) := Complex.conj_ofReal _
  refine ⟨?_, fun z hz => ?_⟩
  · rw [norm_div, Complex.norm_real, norm_norm, div_self h0]
  · rw [star_div₀, hst, ← mul_div_assoc, star_div₀, hst, ← hz]

theorem self_star (m : ℂ) : m * star m = star (m * star m) := by
  rw [star_mul, star_star]

/-- Rebuilding the matrix. -/
theorem rebuild (u : Matrix (Fin 2) (Fin 2) ℂ) {z : ℂ} {beta : ℝ} {n : ℝ × ℝ × ℝ}
    (hc : z * Real.cos (beta / 2) = 1 / 2 * (u 0 0 + u 1 1)) (h1 : z * Real.sin (beta / 2) * n.1 = (u 0 1 + u 1 0) / Complex.I / 2)
    (h2 : z * Real.sin (beta / 2) * n.2.1 = (u 0 1 - u 1 0) / 2)
    (h3 : z * Real.sin (beta / 2) * n.2.2 = (u 0 0 - u 1 1) / Complex.I / 2) : u = z • rotation beta n := by
  have k1 : z * Real.sin (beta / 2) * n.1 * Complex.I = (u 0 1 + u 1 0) / 2 := by
    rw [h1]; field_simp
  have k3 : z * Real.sin (beta / 2) * n.2.2 * Complex.I = (u 0 0 - u 1 1) / 2 := by
    rw [h3]; field_simp
  ext i j
  fin_cases i <;> fin_cases j <;> simp only [rotation, Matrix.smul_apply, Matrix.add_apply, Fin.zero_eta, Fin.mk_one, Fin.isValue,
    Matrix.one_apply_eq, Matrix.one_apply_ne (show (0 : Fin 2) ≠ 1 by decide), Matrix.one_apply_ne (show (1 : Fin 2) ≠ 0 by decide),
    Matrix.of_apply, Matrix.cons_val', Matrix.cons_val_zero, Matrix.cons_val_one, Matrix.cons_val_fin_one, smul_eq_mul]
  · linear_combination (-1 : ℂ) * hc - k3
  · linear_combination (-1 : ℂ) * k1 - h2 + z * Real.sin (beta / 2) * n.2.1 * Complex.I_mul_I
  · linear_combination (-1 : ℂ) * k1 + h2 - z * Real.sin (beta / 2) * n.2.1 * Complex.I_mul_I
  · linear_combination (-1 : ℂ) * hc + k3

theorem not_close_zero {m : ℂ} (h : ¬ isClose m 0 atol8) : m ≠ 0 := by
  rintro rfl
  apply h
  unfold isClose atol8
  norm_num

/-- **C53** (partial: see `c53_violated` for matrices that are not unitary) For every unitary matrix the function returns
an angle in `[0, π]` and a unit axis.  The matrix is a phase times the rotation by this angle about this axis, exactly
if the rotation is not within the tolerance `1.00001e-6` of a phase, and otherwise with an error of at most `3e-6` in every entry. -/
theorem c53_unitary_partial (u : Matrix (Fin 2) (Fin 2) ℂ) (hu : u * uᴴ = 1) :
    ∃ beta n, angleAxis u = .ok (beta, n) ∧ 0 ≤ beta ∧ beta ≤ Real.pi ∧ n.1 ^ 2 + n.2.1 ^ 2 + n.2.2 ^ 2 = 1 ∧
      ∃ z : ℂ, ‖z‖ = 1 ∧ (u = z • rotation beta n ∨
        (Real.sqrt (1 - ‖1 / 2 * (u 0 0 + u 1 1)‖ ^ 2) ≤ 1.00002e-6 ∧ ∀ i j, ‖u i j - (z • rotation beta n) i j‖ ≤ 3e-6)) := by
  have hu' : uᴴ * u = 1 := mul_eq_one_comm.mp hu
  obtain ⟨hn, c1, c2, c3, h12, h13, h23⟩ := decomp u hu hu'
  have hclose : isClose ((u * uᴴ) 0 0) 1 atol8 ∧ isClose ((u * uᴴ) 1 0) 0 atol8 ∧ isClose ((u * uᴴ) 0 1) 0 atol8 ∧
      isClose ((u * uᴴ) 0 0) 1 atol8 := by
    rw [hu]
    refine ⟨?_, ?_, ?_, ?_⟩ <;> unfold isClose atol8 <;> norm_num
  set c := 1 / 2 * (u 0 0 + u 1 1) with hcdef
  set m1 := (u 0 1 + u 1 0) / Complex.I / 2 with hm1
  set m2 := (u 0 1 - u 1 0) / 2 with hm2
  set m3 := (u 0 0 - u 1 1) / Complex.I / 2 with hm3
  have hc1 : ‖c‖ ^ 2 ≤ 1 := by nlinarith [sq_nonneg ‖m1‖, sq_nonneg ‖m2‖, sq_nonneg ‖m3‖]
  have hc1' : ‖c‖ ≤ 1 := by nlinarith [norm_nonneg c]
  set s := Real.sqrt (1 - ‖c‖ ^ 2) with hs
  have hs0 : 0 ≤ s := Real.sqrt_nonneg _
  have hs2 : s ^ 2 = 1 - ‖c‖ ^ 2 := Real.sq_sqrt (by linarith)
  unfold angleAxis
  simp only
  rw [if_pos hclose, if_neg (not_lt.mpr hc1'), ← hs]
  by_cases hsc : isClose 0 (s : ℂ) (1 / 1000000)
  · rw [if_pos hsc]
    have hsmall : s ≤ 1.00002e-6 := by
      unfold isClose at hsc
      rw [zero_sub, norm_neg, Complex.norm_real, Real.norm_eq_abs, abs_of_nonneg hs0] at hsc
      norm_num at hsc ⊢
      linarith
    have hcpos : 0 < ‖c‖ := by
      rcases (norm_nonneg c).eq_or_lt with h | h
      · rw [← h] at hs2
        have h1 : s ^ 2 = 1 := by rw [hs2]; norm_num
        have h2 : s ≤ 1 / 2 := hsmall.trans (by norm_num)
        nlinarith
      · exact h
    refine ⟨0, _, rfl, le_refl _, Real.pi_pos.le, by norm_num, c / ‖c‖, (phase_spec (norm_pos_iff.mp hcpos)).1, Or.inr ⟨hsmall, ?_⟩⟩
    have hle : ∀ m : ℂ, ‖m‖ ^ 2 ≤ s ^ 2 → ‖m‖ ≤ s := fun m h => by
      nlinarith [norm_nonneg m]
    have l1 := hle m1 (by nlinarith [sq_nonneg ‖m2‖, sq_nonneg ‖m3‖])
    have l2 := hle m2 (by nlinarith [sq_nonneg ‖m1‖, sq_nonneg ‖m3‖])
    have l3 := hle m3 (by nlinarith [sq_nonneg ‖m1‖, sq_nonneg ‖m2‖])
    have lc : ‖c - c / ‖c‖‖ ≤ 1e-6 := by
      have hn0 : (‖c‖ : ℂ) ≠ 0 := by exact_mod_cast hcpos.ne'
      have e : c - c / ‖c‖ = (c / ‖c‖) * ((‖c‖ - 1 : ℝ) : ℂ) := by
        push_cast
        field_simp
      rw [e, norm_mul, (phase_spec (norm_pos_iff.mp hcpos)).1, one_mul, Complex.norm_real, Real.norm_eq_abs, abs_of_nonpos (by linarith)]
      norm_num at hsmall ⊢
      nlinarith
    have hI : ∀ z : ℂ, ‖Complex.I * z‖ = ‖z‖ := by intro z; rw [norm_mul, Complex.norm_I, one_mul]
    have r : ∀ i j, ((c / ‖c‖) • rotation 0 (1, 0, 0)) i j = if i = j then c / ‖c‖ else 0 := by
      intro i j
      simp only [rotation, zero_div, Real.cos_zero, Real.sin_zero, Complex.ofReal_zero, mul_zero, zero_smul, add_zero,
        Complex.ofReal_one, one_smul, Matrix.smul_apply, Matrix.one_apply, smul_eq_mul, mul_ite, mul_one]
    have hIm1 : Complex.I * m1 = (u 0 1 + u 1 0) / 2 := by rw [hm1]; field_simp
    have hIm3 : Complex.I * m3 = (u 0 0 - u 1 1) / 2 := by rw [hm3]; field_simp
    intro i j
    rw [r]
    fin_cases i <;> fin_cases j <;> simp only [Fin.zero_eta, Fin.mk_one, Fin.isValue, if_true, zero_ne_one, one_ne_zero, if_false, sub_zero]
    · have e : u 0 0 - c / ‖c‖ = (c - c / ‖c‖) + Complex.I * m3 := by rw [hIm3, hcdef]; ring
      rw [e]
      refine (norm_add_le _ _).trans ?_
      rw [hI]
      norm_num at lc hsmall ⊢
      linarith
    · have e : u 0 1 = Complex.I * m1 + m2 := by rw [hIm1, hm2]; ring
      rw [e]
      refine (norm_add_le _ _).trans ?_
      rw [hI]
      norm_num at hsmall ⊢
      linarith
    · have e : u 1 0 = Complex.I * m1 - m2 := by rw [hIm1, hm2]; ring
      rw [e]
      refine (norm_sub_le _ _).trans ?_
      rw [hI]
      norm_num at hsmall ⊢
      linarith
    · have e : u 1 1 - c / ‖c‖ = (c - c / ‖c‖) - Complex.I * m3 := by rw [hIm3, hcdef]; ring
      rw [e]
      refine (norm_sub_le _ _).trans ?_
      rw [hI]
      norm_num at lc hsmall ⊢
      linarith
  · rw [if_neg hsc]
    have hspos : 0 < s := by
      rcases hs0.eq_or_lt with h | h
      · exfalso
        apply hsc
        rw [← h]
        unfold isClose
        norm_num
      · exact h
    have hs' : (s : ℂ) ≠ 0 := by exact_mod_cast hspos.ne'
    rw [show (u 0 1 + u 1 0) / Complex.I / s / 2 = m1 / s by rw [hm1]; ring,
      show (u 0 1 - u 1 0) / s / 2 = m2 / s by rw [hm2]; ring,
      show (u 0 0 - u 1 1) / Complex.I / s / 2 = m3 / s by rw [hm3]; ring]
    have key : ∀ m, m ≠ 0 → c * star m = star (c * star m) → m1 * star m = star (m1 * star m) →
        m2 * star m = star (m2 * star m) → m3 * star m = star (m3 * star m) →
        ∃ beta n, finishAxis ((m / s) / ‖m / s‖) c (m1 / s) (m2 / s) (m3 / s) = .ok (beta, n) ∧ 0 ≤ beta ∧ beta ≤ Real.pi ∧
          n.1 ^ 2 + n.2.1 ^ 2 + n.2.2 ^ 2 = 1 ∧ ∃ z : ℂ, ‖z‖ = 1 ∧ (u = z • rotation beta n ∨
            (s ≤ 1.00002e-6 ∧ ∀ i j, ‖u i j - (z • rotation beta n) i j‖ ≤ 3e-6)) := by
      intro m hm k0 k1 k2 k3
      have e : (m / s) / ‖m / s‖ = m / ‖m‖ := by
        rw [norm_div, Complex.norm_real, Real.norm_eq_abs, abs_of_pos hspos]
        push_cast
        field_simp
      rw [e]
      obtain ⟨p1, p2⟩ := phase_spec hm
      obtain ⟨beta, n, q1, q2, q3, q4, z, q5, q6, q7, q8, q9⟩ :=
        finishAxis_spec hspos hs2 hn p1 (p2 _ k0) (p2 _ k1) (p2 _ k2) (p2 _ k3)
      exact ⟨beta, n, q1, q2, q3, q4, z, q5, Or.inl (rebuild u q6 q7 q8 q9)⟩
    have hsymm : ∀ a b : ℂ, a * star b = star (a * star b) → b * star a = star (b * star a) := by
      intro a b h
      rw [star_mul, star_star] at h
      rw [star_mul, star_star, h]
    have hne : ∀ m : ℂ, m / s ≠ 0 → m ≠ 0 := by
      rintro m h rfl
      simp at h
    unfold pickPhase
    by_cases k1 : isClose (m1 / s) 0 atol8
    · rw [if_neg (not_not.mpr k1)]
      by_cases k2 : isClose (m2 / s) 0 atol8
      · rw [if_neg (not_not.mpr k2)]
        by_cases k3 : isClose (m3 / s) 0 atol8
        · exfalso
          have hb : ∀ m : ℂ, isClose (m / s) 0 atol8 → ‖m‖ ≤ 1 / 100000000 * s := by
            intro m h
            unfold isClose atol8 at h
            rw [sub_zero, norm_zero, mul_zero, add_zero, norm_div, Complex.norm_real, Real.norm_eq_abs, abs_of_pos hspos,
              div_le_iff₀ hspos] at h
            exact h
          have := hb _ k1; have := hb _ k2; have := hb _ k3
          have e1 : ‖m1‖ ^ 2 ≤ (1 / 100000000 * s) ^ 2 := by gcongr
          have e2 : ‖m2‖ ^ 2 ≤ (1 / 100000000 * s) ^ 2 := by gcongr
          have e3 : ‖m3‖ ^ 2 ≤ (1 / 100000000 * s) ^ 2 := by gcongr
          nlinarith
        · rw [if_pos k3]
          exact key m3 (hne _ (not_close_zero k3)) c3 h13 h23 (self_star _)
      · rw [if_pos k2]
        exact key m2 (hne _ (not_close_zero k2)) c2 h12 (self_star _) (hsymm _ _ h23)
    · rw [if_pos k1]
      exact key m1 (hne _ (not_close_zero k1)) c1 (self_star _) (hsymm _ _ h12) (hsymm _ _ h13)

/-- **C53** (partial) The function raises `ValueError` exactly if the first row is not normalised or the rows are not
orthogonal (up to the tolerance); the norm of the second row is not tested. -/
theorem c53_rejects_partial (u : Matrix (Fin 2) (Fin 2) ℂ) :
    angleAxis u = .error .valueError ↔
      ¬ (isClose ((u * uᴴ) 0 0) 1 atol8 ∧ isClose ((u * uᴴ) 1 0) 0 atol8 ∧ isClose ((u * uᴴ) 0 1) 0 atol8) := by
  unfold angleAxis
  simp only
  by_cases h : isClose ((u * uᴴ) 0 0) 1 atol8 ∧ isClose ((u * uᴴ) 1 0) 0 atol8 ∧ isClose ((u * uᴴ) 0 1) 0 atol8
  · rw [if_pos ⟨h.1, h.2.1, h.2.2, h.1⟩]
    simp only [h, and_self, not_true, iff_false]
    split_ifs
    · simp
    · simp
    · split
      · unfold finishAxis
        simp only
        split_ifs <;> simp
      · simp
  · rw [if_neg (fun h' => h ⟨h'.1, h'.2.1, h'.2.2.1⟩)]
    simp [h]

/-- The witness of `c53_violated`. -/
noncomputable def stretched : Matrix (Fin 2) (Fin 2) ℂ := !![3 / 5, 4 / 5; -28 / 15, 7 / 5]

/-- **C53 violated**: a matrix which is not unitary (the second row has squared norm `49/9`, far outside every tolerance)
is accepted and described by the angle zero, although no phase times a rotation equals it. -/
theorem c53_violated : ¬ isClose ((stretched * stretchedᴴ) 1 1) 1 atol8 ∧ angleAxis stretched = .ok (0, (1, 0, 0)) ∧
    ∀ z : ℂ, stretched ≠ z • rotation 0 (1, 0, 0) := by
  have hst : ∀ i j, star (stretched i j) = stretched i j := by
    intro i j
    fin_cases i <;> fin_cases j <;> simp [stretched]
  have e : ∀ i j, (stretched * stretchedᴴ) i j = stretched i 0 * stretched j 0 + stretched i 1 * stretched j 1 := by
    intro i j
    rw [Matrix.mul_apply, Fin.sum_univ_two, Matrix.conjTranspose_apply, Matrix.conjTranspose_apply, hst, hst]
  have v00 : stretched 0 0 = 3 / 5 := by simp [stretched]
  have v01 : stretched 0 1 = 4 / 5 := by simp [stretched]
  have v10 : stretched 1 0 = -28 / 15 := by simp [stretched]
  have v11 : stretched 1 1 = 7 / 5 := by simp [stretched]
  refine ⟨?_, ?_, ?_⟩
  · rw [e, v10, v11]
    unfold isClose atol8
    rw [show (-28 / 15 * (-28 / 15) + 7 / 5 * (7 / 5) - 1 : ℂ) = ((40 / 9 : ℝ) : ℂ) by push_cast; norm_num, Complex.norm_real]
    norm_num
  · unfold angleAxis
    simp only
    rw [e, e, e, v00, v01, v10, v11, if_pos, if_neg, if_pos]
    · rw [show (1 / 2 * (3 / 5 + 7 / 5) : ℂ) = 1 by norm_num]
      unfold isClose
      norm_num
    · rw [show (1 / 2 * (3 / 5 + 7 / 5) : ℂ) = 1 by norm_num]
      norm_num
    · unfold isClose atol8
      norm_num
  · intro z h
    have h01 := congrFun (congrFun h 0) 1
    rw [v01] at h01
    simp [rotation] at h01

/-! ## C54 -/

/-- `default_set_orthorgonal`, cost_functions.py:1965-1996 (only dimension two). -/
def orthSet : List (Matrix (Fin 2) (Fin 2) ℂ) := [!![0, 1; 1, 0], !![1, 0; 0, -1], !![0, -Complex.I; Complex.I, 0], 1]

/-- `averge_gate_fidelity`, cost_functions.py:1929-1962, in two dimensions (others raise `NotImplementedError`). -/
noncomputable def avgGateFid (U T : Matrix (Fin 2) (Fin 2) ℂ) : ℂ :=
  let temp := Uᴴ * T
  let l := orthSet.map fun ort => ortᴴ * tempᴴ * ort * temp
  let fidelity := l.foldl (· + ·) 0
  (fidelity.trace + 2 ^ 2) / (2 ^ 2 * (2 + 1))

theorem entFid_none {n : Type} [Fintype n] [DecidableEq n] (cl : Closest) (T U : Matrix n n ℂ) (b : Bool) :
    entFid (n := n) cl none T U b = ‖(Tᴴ * U).trace‖ ^ 2 / Fintype.card n / Fintype.card n := rfl

/-- The orthogonal operators average a matrix to its trace. -/
theorem orth_avg (B : Matrix (Fin 2) (Fin 2) ℂ) :
    (orthSet.map fun ort => ortᴴ * B * ort).foldl (· + ·) 0 = (2 * B.trace) • 1 := by
  simp only [orthSet, List.map_cons, List.map_nil, List.foldl_cons, List.foldl_nil, zero_add]
  ext i j
  fin_cases i <;> fin_cases j <;>
    simp [Matrix.mul_apply, Fin.sum_univ_two, Matrix.trace, Matrix.conjTranspose_apply]
  · linear_combination (-B 1 1) * Complex.I_mul_I
  · linear_combination (B 1 0) * Complex.I_mul_I
  · linear_combination (B 0 1) * Complex.I_mul_I
  · linear_combination (-B 0 0) * Complex.I_mul_I

theorem foldl_mul (l : List (Matrix (Fin 2) (Fin 2) ℂ)) (f : Matrix (Fin 2) (Fin 2) ℂ → Matrix (Fin 2) (Fin 2) ℂ)
    (X A : Matrix (Fin 2) (Fin 2) ℂ) :
    (l.map fun ort => f ort * A).foldl (· + ·) (X * A) = (l.map f).foldl (· + ·) X * A := by
  induction l generalizing X with
  | nil => rfl
  | cons a l ih => rw [List.map_cons, List.foldl_cons, List.map_cons, List.foldl_cons, ← ih, Matrix.add_mul]

theorem orth_sum (A : Matrix (Fin 2) (Fin 2) ℂ) :
    ((orthSet.map fun ort => ortᴴ * Aᴴ * ort * A).foldl (· + ·) 0).trace = 2 * (A.trace * star A.trace) := by
  have h := foldl_mul orthSet (fun ort => ortᴴ * Aᴴ * ort) 0 A
  rw [Matrix.zero_mul] at h
  rw [h, orth_avg, Matrix.smul_mul, Matrix.one_mul, Matrix.trace_smul, Matrix.trace_conjTranspose, smul_eq_mul]
  ring

/-- **C54** The average gate fidelity is `(2 F + 1) / 3` with the entanglement fidelity `F` (also for operators which are
not unitary). -/
theorem c54_average (cl : Closest) (U T : Matrix (Fin 2) (Fin 2) ℂ) :
    avgGateFid U T = (((2 * entFid (n := Fin 2) cl none T U false + 1) / 3 : ℝ) : ℂ) := by
  have hF : entFid (n := Fin 2) cl none T U false = ‖(Tᴴ * U).trace‖ ^ 2 / 2 / 2 := by
    rw [entFid_none, Fintype.card_fin]
    norm_num
  have hc : (Tᴴ * U).trace = star (Uᴴ * T).trace := by
    rw [← Matrix.trace_conjTranspose, Matrix.conjTranspose_mul, Matrix.conjTranspose_conjTranspose]
  rw [hF, hc, norm_star]
  push_cast
  have := sq_norm (Uᴴ * T).trace
  push_cast at this
  rw [this]
  unfold avgGateFid
  simp only
  generalize Uᴴ * T = A
  rw [orth_sum]
  ring

/-- **C54** For unitaries it lies in `[1/3, 1]`. -/
theorem c54_range (U T : Matrix (Fin 2) (Fin 2) ℂ) (hU : U ∈ Matrix.unitaryGroup (Fin 2) ℂ)
    (hT : T ∈ Matrix.unitaryGroup (Fin 2) ℂ) : ∃ x : ℝ, avgGateFid U T = (x : ℂ) ∧ 1 / 3 ≤ x ∧ x ≤ 1 := by
  obtain ⟨h1, h2⟩ := c43_range (n := Fin 2) (fun _ M => M) false T U hT hU
  exact ⟨_, c54_average (fun _ M => M) U T, by linarith, by linarith⟩

/-! ## Examples -/

/-- A bit flip is the rotation by `π` about the first axis. -/
example : ∃ beta n, angleAxis !![0, 1; 1, 0] = .ok (beta, n) ∧ 0 ≤ beta ∧ beta ≤ Real.pi ∧
    ∃ z : ℂ, ‖z‖ = 1 ∧ !![0, 1; 1, 0] = z • rotation beta n := by
  obtain ⟨beta, n, h1, h2, h3, -, z, h4, h5⟩ := c53_unitary_partial !![0, 1; 1, 0] (by
    ext i j; fin_cases i <;> fin_cases j <;> simp [Matrix.mul_apply, Fin.sum_univ_two])
  refine ⟨beta, n, h1, h2, h3, z, h4, h5.resolve_right ?_⟩
  rintro ⟨h, -⟩
  norm_num at h

example : avgGateFid !![0, 1; 1, 0] 1 = 1 / 3 := by
  rw [c54_average fun _ M => M, entFid_none]
  simp [Matrix.trace, Fin.sum_univ_two]

end Verif.Cost
