import Verif.Cost.Smooth
import Mathlib.Analysis.Calculus.MeanValue

/-!
# C122: how accurate the derivatives of the methods 'approx', 'first_order', 'second_order' and 'third_order' are

The exact derivative is `NormedSpace.exp` differentiated along the direction; the operator norm measures the error.
-/

namespace Verif.Cost
open Verif Verif.Operator Verif.Solver Matrix

section
open scoped Matrix.Norms.L2Operator
variable {n : Type} [Fintype n] [DecidableEq n]

omit [Fintype n] [DecidableEq n] in
theorem skew_smul {X : Matrix n n ℂ} (s : ℝ) (hX : Xᴴ = -X) : (s • X)ᴴ = -(s • X) := by
  rw [Matrix.conjTranspose_smul, hX]
  simp

omit [Fintype n] [DecidableEq n] in
theorem skew_add {X Y : Matrix n n ℂ} (hX : Xᴴ = -X) (hY : Yᴴ = -Y) : (X + Y)ᴴ = -(X + Y) := by
  rw [Matrix.conjTranspose_add, hX, hY, neg_add]

/-- A function vanishing at zero whose derivative is bounded by a power. -/
theorem norm_le_of_deriv {f f' : ℝ → Matrix n n ℂ} (h0 : f 0 = 0) (hf : ∀ s, HasDerivAt f (f' s) s) {c : ℝ} {k : Nat}
    (hb : ∀ s, 0 ≤ s → ‖f' s‖ ≤ c * (k + 1) * s ^ k) {x : ℝ} (hx : 0 ≤ x) : ‖f x‖ ≤ c * x ^ (k + 1) := by
  refine image_norm_le_of_norm_deriv_right_le_deriv_boundary (a := 0) (b := x) (f' := f') (B := fun s => c * s ^ (k + 1))
    (B' := fun s => c * (k + 1) * s ^ k) (fun s _ => (hf s).continuousAt.continuousWithinAt) (fun s _ => (hf s).hasDerivWithinAt) ?_ ?_
    (fun s hs => hb s hs.1) ⟨hx, le_rfl⟩
  · simp [h0]
  · intro s
    refine ((hasDerivAt_pow (k + 1) s).const_mul c).congr_deriv ?_
    push_cast
    ring

/-- The derivative of `exp (s A)` in direction `s D`. -/
noncomputable def dexact (A D : Matrix n n ℂ) (s : ℝ) : Matrix n n ℂ :=
  let _ : NormedAlgebra ℝ (Matrix n n ℂ) := NormedAlgebra.restrictScalars ℝ ℂ _
  ∫ r in (0 : ℝ)..1, NormedSpace.exp ((1 - r) • (s • A)) * (s • D) * NormedSpace.exp (r • (s • A))

theorem dexact_deriv (A D : Matrix n n ℂ) (s : ℝ) :
    MatDeriv (fun x : ℝ => NormedSpace.exp ((s : ℂ) • (A + (x : ℂ) • D))) (dexact A D s) 0 := by
  let _ : NormedAlgebra ℝ (Matrix n n ℂ) := NormedAlgebra.restrictScalars ℝ ℂ _
  have h := hasDerivAt_exp_line (s • A) (s • D)
  refine (MatDeriv.of_hasDerivAt h).congr (fun x => ?_) rfl
  congr 1
  simp only [Complex.coe_smul]
  module

theorem dexact_zero (A D : Matrix n n ℂ) : dexact A D 0 = 0 := by
  simp [dexact]

/-- The differential equation of the derivative. -/
theorem dexact_ode (A D : Matrix n n ℂ) (s : ℝ) :
    HasDerivAt (dexact A D) (A * dexact A D s + D * NormedSpace.exp (s • A)) s := by
  let _ : NormedAlgebra ℝ (Matrix n n ℂ) := NormedAlgebra.restrictScalars ℝ ℂ _
  let _ : NormedAlgebra ℚ (Matrix n n ℂ) := NormedAlgebra.restrictScalars ℚ ℝ _
  have hexp : Continuous (NormedSpace.exp : Matrix n n ℂ → Matrix n n ℂ) := NormedSpace.exp_continuous
  have hE : ∀ s, dexact A D s = NormedSpace.exp (s • A) * ∫ q in (0 : ℝ)..s, NormedSpace.exp (-(q • A)) * D * NormedSpace.exp (q • A) := by
    intro s
    have h1 : (∫ q in (0 : ℝ)..s, NormedSpace.exp (-(q • A)) * D * NormedSpace.exp (q • A)) =
        s • ∫ r in (0 : ℝ)..1, NormedSpace.exp (-((s * r) • A)) * D * NormedSpace.exp ((s * r) • A) := by
      have := intervalIntegral.smul_integral_comp_mul_left (a := (0 : ℝ)) (b := 1)
        (fun q : ℝ => NormedSpace.exp (-(q • A)) * D * NormedSpace.exp (q • A)) s
      simpa using this.symm
    rw [h1, ← intervalIntegral.integral_smul]
    have hc : Continuous fun r : ℝ => s • (NormedSpace.exp (-((s * r) • A)) * D * NormedSpace.exp ((s * r) • A)) := by fun_prop
    refine Eq.trans ?_ ((ContinuousLinearMap.mul ℝ (Matrix n n ℂ) (NormedSpace.exp (s • A))).intervalIntegral_comp_comm
      (hc.intervalIntegrable 0 1))
    unfold dexact
    refine intervalIntegral.integral_congr fun r _ => ?_
    have h2 : NormedSpace.exp ((1 - r) • (s • A)) = NormedSpace.exp (s • A) * NormedSpace.exp (-((s * r) • A)) := by
      rw [← NormedSpace.exp_add_of_commute]
      · congr 1
        module
      · exact (((Commute.refl A).smul_left s).smul_right (s * r)).neg_right
    simp only [h2]
    simp only [ContinuousLinearMap.mul_apply', smul_smul, mul_comm r s, mul_smul_comm, smul_mul_assoc, mul_assoc]
  rw [funext hE]
  have h1 := hasDerivAt_exp_smul_const' A s
  have h2 : HasDerivAt (fun s : ℝ => ∫ q in (0 : ℝ)..s, NormedSpace.exp (-(q • A)) * D * NormedSpace.exp (q • A))
    (NormedSpace.exp (-(s • A)) * D * NormedSpace.exp (s • A)) s :=
    intervalIntegral.integral_hasDerivAt_right (Continuous.intervalIntegrable (by fun_prop) _ _)
      (Continuous.stronglyMeasurableAtFilter (by fun_prop) _ _) (Continuous.continuousAt (by fun_prop))
  refine (h1.mul h2).congr_deriv ?_
  have h3 : NormedSpace.exp (s • A) * NormedSpace.exp (-(s • A)) = 1 := by
    rw [← NormedSpace.exp_add_of_commute (Commute.refl _).neg_right]; simp
  rw [mul_assoc, mul_assoc, ← mul_assoc (NormedSpace.exp (s • A)) (NormedSpace.exp (-(s • A))), h3, one_mul]

/-! ## The errors -/

theorem norm_dexact (A D : Matrix n n ℂ) (hA : Aᴴ = -A) {s : ℝ} (hs : 0 ≤ s) : ‖dexact A D s‖ ≤ ‖D‖ * s := by
  let _ : NormedAlgebra ℝ (Matrix n n ℂ) := NormedAlgebra.restrictScalars ℝ ℂ _
  have hu : ∀ r : ℝ, ‖NormedSpace.exp (r • (s • A))‖ ≤ 1 := fun r => norm_unitary_le (exp_skew_unitary (skew_smul r (skew_smul s hA)))
  have hb := intervalIntegral.norm_integral_le_of_norm_le_const (a := (0 : ℝ)) (b := 1) (C := ‖D‖ * s)
      (f := fun r : ℝ => NormedSpace.exp ((1 - r) • (s • A)) * (s • D) * NormedSpace.exp (r • (s • A))) ?_
  · simpa [dexact] using hb
  · intro r _
    refine (norm_mul_le _ _).trans ((mul_le_mul ((norm_mul_le _ _).trans (mul_le_mul_of_nonneg_right (hu _) (norm_nonneg _))) (hu _)
      (norm_nonneg _) (by positivity)).trans (le_of_eq ?_))
    rw [norm_smul, Real.norm_of_nonneg hs]
    ring

/-- The remainders of the exponential series of a skew Hermitian matrix. -/
theorem exp_taylor (A : Matrix n n ℂ) (hA : Aᴴ = -A) {s : ℝ} (hs : 0 ≤ s) :
    ‖NormedSpace.exp (s • A) - 1‖ ≤ ‖A‖ * s ^ 1 ∧ ‖NormedSpace.exp (s • A) - 1 - s • A‖ ≤ ‖A‖ ^ 2 / 2 * s ^ 2 ∧
    ‖NormedSpace.exp (s • A) - 1 - s • A - (s ^ 2 / 2) • (A * A)‖ ≤ ‖A‖ ^ 3 / 6 * s ^ 3 := by
  let _ : NormedAlgebra ℝ (Matrix n n ℂ) := NormedAlgebra.restrictScalars ℝ ℂ _
  have hu : ∀ r : ℝ, ‖NormedSpace.exp (r • A)‖ ≤ 1 := fun r => norm_unitary_le (exp_skew_unitary (skew_smul r hA))
  have h0 := fun s : ℝ => hasDerivAt_exp_smul_const' (𝕂 := ℝ) A s
  have h1 : ∀ s : ℝ, HasDerivAt (fun s : ℝ => NormedSpace.exp (s • A) - 1) (A * NormedSpace.exp (s • A)) s := fun s => (h0 s).sub_const 1
  have h2 : ∀ s : ℝ, HasDerivAt (fun s : ℝ => NormedSpace.exp (s • A) - 1 - s • A) (A * (NormedSpace.exp (s • A) - 1)) s := fun s =>
    ((h1 s).sub ((hasDerivAt_id s).smul_const A)).congr_deriv (by simp [mul_sub])
  have h3 : ∀ s : ℝ, HasDerivAt (fun s : ℝ => NormedSpace.exp (s • A) - 1 - s • A - (s ^ 2 / 2) • (A * A))
      (A * (NormedSpace.exp (s • A) - 1 - s • A)) s := fun s =>
    ((h2 s).sub (((hasDerivAt_pow 2 s).div_const 2).smul_const (A * A))).congr_deriv (by
      simp [mul_sub])
  have k1 : ∀ s : ℝ, 0 ≤ s → ‖NormedSpace.exp (s • A) - 1‖ ≤ ‖A‖ * s ^ 1 := fun s hs =>
    norm_le_of_deriv (k := 0) (by simp) h1 (fun r _ => (norm_mul_le _ _).trans
      ((mul_le_mul_of_nonneg_left (hu r) (norm_nonneg _)).trans (le_of_eq (by norm_num)))) hs
  have k2 : ∀ s : ℝ, 0 ≤ s → ‖NormedSpace.exp (s • A) - 1 - s • A‖ ≤ ‖A‖ ^ 2 / 2 * s ^ 2 := fun s hs =>
    norm_le_of_deriv (k := 1) (by simp) h2 (fun r hr => (norm_mul_le _ _).trans
      ((mul_le_mul_of_nonneg_left (k1 r hr) (norm_nonneg _)).trans (le_of_eq (by push_cast; ring)))) hs
  exact ⟨k1 s hs, k2 s hs, norm_le_of_deriv (k := 2) (by simp) h3 (fun r hr => (norm_mul_le _ _).trans
      ((mul_le_mul_of_nonneg_left (k2 r hr) (norm_nonneg _)).trans (le_of_eq (by push_cast; ring)))) hs⟩

/-- The errors of the truncated series of the derivative. -/
theorem dexact_taylor (A D : Matrix n n ℂ) (hA : Aᴴ = -A) {s : ℝ} (hs : 0 ≤ s) :
    ‖dexact A D s - s • D‖ ≤ ‖D‖ * ‖A‖ * s ^ 2 ∧
    ‖dexact A D s - s • D - (s ^ 2 / 2) • (A * D + D * A)‖ ≤ ‖D‖ * ‖A‖ ^ 2 / 2 * s ^ 3 ∧
    ‖dexact A D s - s • D - (s ^ 2 / 2) • (A * D + D * A) - (s ^ 3 / 6) • (A * A * D + D * A * A + A * D * A)‖ ≤
      ‖D‖ * ‖A‖ ^ 3 / 6 * s ^ 4 := by
  let _ : NormedAlgebra ℝ (Matrix n n ℂ) := NormedAlgebra.restrictScalars ℝ ℂ _
  have h0 := dexact_ode A D
  have h1 : ∀ s : ℝ, HasDerivAt (fun s : ℝ => dexact A D s - s • D) (A * dexact A D s + D * (NormedSpace.exp (s • A) - 1)) s := fun s =>
    ((h0 s).sub ((hasDerivAt_id s).smul_const D)).congr_deriv (by simp [mul_sub]; abel)
  have h2 : ∀ s : ℝ, HasDerivAt (fun s : ℝ => dexact A D s - s • D - (s ^ 2 / 2) • (A * D + D * A))
      (A * (dexact A D s - s • D) + D * (NormedSpace.exp (s • A) - 1 - s • A)) s := fun s =>
    ((h1 s).sub (((hasDerivAt_pow 2 s).div_const 2).smul_const (A * D + D * A))).congr_deriv (by
      simp [mul_sub]; abel)
  have h3 : ∀ s : ℝ, HasDerivAt (fun s : ℝ => dexact A D s - s • D - (s ^ 2 / 2) • (A * D + D * A) -
        (s ^ 3 / 6) • (A * A * D + D * A * A + A * D * A))
      (A * (dexact A D s - s • D - (s ^ 2 / 2) • (A * D + D * A)) + D * (NormedSpace.exp (s • A) - 1 - s • A - (s ^ 2 / 2) • (A * A))) s := fun s =>
    ((h2 s).sub (((hasDerivAt_pow 3 s).div_const 6).smul_const (A * A * D + D * A * A + A * D * A))).congr_deriv (by
      simp only [mul_sub, mul_smul_comm, mul_add, ← mul_assoc]
      module)
  have bound : ∀ {X Y : Matrix n n ℂ} {x y : ℝ}, ‖X‖ ≤ x → ‖Y‖ ≤ y → ‖A * X + D * Y‖ ≤ ‖A‖ * x + ‖D‖ * y := fun hx hy =>
    (norm_add_le _ _).trans (add_le_add ((norm_mul_le _ _).trans (mul_le_mul_of_nonneg_left hx (norm_nonneg _)))
      ((norm_mul_le _ _).trans (mul_le_mul_of_nonneg_left hy (norm_nonneg _))))
  have k1 : ∀ s : ℝ, 0 ≤ s → ‖dexact A D s - s • D‖ ≤ ‖D‖ * ‖A‖ * s ^ 2 := fun s hs =>
    norm_le_of_deriv (k := 1) (by simp [dexact_zero]) h1 (fun r hr => (bound (norm_dexact A D hA hr) (exp_taylor A hA hr).1).trans
      (le_of_eq (by push_cast; ring))) hs
  have k2 : ∀ s : ℝ, 0 ≤ s → ‖dexact A D s - s • D - (s ^ 2 / 2) • (A * D + D * A)‖ ≤ ‖D‖ * ‖A‖ ^ 2 / 2 * s ^ 3 := fun s hs =>
    norm_le_of_deriv (k := 2) (by simp [dexact_zero]) h2 (fun r hr => (bound (k1 r hr) (exp_taylor A hA hr).2.1).trans
      (le_of_eq (by push_cast; ring))) hs
  exact ⟨k1 s hs, k2 s hs, norm_le_of_deriv (k := 3) (by simp [dexact_zero]) h3
    (fun r hr => (bound (k2 r hr) (exp_taylor A hA hr).2.2).trans (le_of_eq (by push_cast; ring))) hs⟩

/-- The error of a forward difference. -/
theorem dexact_difference (A D : Matrix n n ℂ) (hA : Aᴴ = -A) (hD : Dᴴ = -D) (s : ℝ) {ε : ℝ} (hε : 0 < ε) :
    ‖(1 / ε) • (NormedSpace.exp (s • (A + ε • D)) - NormedSpace.exp (s • A)) - dexact A D s‖ ≤ s ^ 2 * ‖D‖ ^ 2 * ε / 2 := by
  let _ : NormedAlgebra ℝ (Matrix n n ℂ) := NormedAlgebra.restrictScalars ℝ ℂ _
  let _ : NormedAlgebra ℚ (Matrix n n ℂ) := NormedAlgebra.restrictScalars ℚ ℝ _
  have hexp : Continuous (NormedSpace.exp : Matrix n n ℂ → Matrix n n ℂ) := NormedSpace.exp_continuous
  have hB := skew_smul s (skew_add hA (skew_smul ε hD))
  rw [exp_sub_exp, ← intervalIntegral.integral_smul]
  unfold dexact
  rw [← intervalIntegral.integral_sub (Continuous.intervalIntegrable (by fun_prop) 0 1) (Continuous.intervalIntegrable (by fun_prop) 0 1)]
  refine (intervalIntegral.norm_integral_le_of_norm_le (g := fun r : ℝ => s ^ 2 * ‖D‖ ^ 2 * ε * r) zero_le_one
    (MeasureTheory.ae_of_all _ fun r hr => ?_) (Continuous.intervalIntegrable (by fun_prop) 0 1)).trans (le_of_eq ?_)
  · have hr0 : 0 ≤ r := hr.1.le
    have e : (1 / ε) • (NormedSpace.exp ((1 - r) • s • A) * (s • (A + ε • D) - s • A) * NormedSpace.exp (r • s • (A + ε • D))) -
        NormedSpace.exp ((1 - r) • s • A) * s • D * NormedSpace.exp (r • s • A) =
        NormedSpace.exp ((1 - r) • s • A) * (s • D) * (NormedSpace.exp (r • s • (A + ε • D)) - NormedSpace.exp (r • s • A)) := by
      have : s • (A + ε • D) - s • A = ε • (s • D) := by module
      rw [this, mul_smul_comm, smul_mul_assoc, smul_smul, one_div, inv_mul_cancel₀ hε.ne', one_smul, mul_sub]
    rw [e]
    have k1 : ‖NormedSpace.exp ((1 - r) • s • A)‖ ≤ 1 := norm_unitary_le (exp_skew_unitary (skew_smul _ (skew_smul s hA)))
    have k2 : ‖NormedSpace.exp (r • s • (A + ε • D)) - NormedSpace.exp (r • s • A)‖ ≤ r * (|s| * (ε * ‖D‖)) := by
      refine (exp_lip (skew_smul r hB) (skew_smul r (skew_smul s hA))).trans (le_of_eq ?_)
      have : r • s • (A + ε • D) - r • s • A = r • s • ε • D := by module
      rw [this, norm_smul, norm_smul, norm_smul, Real.norm_of_nonneg hr0, Real.norm_of_nonneg hε.le, Real.norm_eq_abs]
    refine (norm_mul_le _ _).trans ((mul_le_mul ((norm_mul_le _ _).trans (mul_le_mul_of_nonneg_right k1 (norm_nonneg _))) k2
      (norm_nonneg _) (by positivity)).trans (le_of_eq ?_))
    rw [norm_smul, Real.norm_eq_abs, ← sq_abs s]
    ring
  · rw [intervalIntegral.integral_const_mul]
    simp
    ring

theorem dexact_neg (A D : Matrix n n ℂ) (s : ℝ) : dexact (-A) (-D) (-s) = dexact A D s := by
  simp [dexact]

/-- Specification: a bound for the error of the derivative computed by each of the methods, for a generator of norm `a`, a direction of norm
`d`, a time step `s` and the step width `ε` of 'approx'. -/
noncomputable def methodError (m : Method) (a d s ε : ℝ) : ℝ :=
  match m with
  | .approx => (|s| * d) ^ 2 * ε / 2
  | .first => |s| * d * (|s| * a)
  | .second => |s| * d * (|s| * a) ^ 2 / 2
  | .third => |s| * d * (|s| * a) ^ 3 / 6
  | _ => 0

/-- Specification: the matrix is diagonalisable with pairwise different eigenvalues. -/
def Simple (A : Matrix n n ℂ) : Prop := ∃ lam V, Function.Injective lam ∧ IsUnit V ∧ A * V = V * Matrix.diagonal lam

theorem charpoly_of_similar {A V : Matrix n n ℂ} {lam : n → ℂ} (hV : IsUnit V) (h : A * V = V * Matrix.diagonal lam) :
    A.charpoly.roots = Finset.univ.val.map lam := by
  obtain ⟨v, rfl⟩ := hV
  have e : A = v.val * Matrix.diagonal lam * v⁻¹.val := by
    rw [← h, mul_assoc, Units.mul_inv, mul_one]
  rw [e, Matrix.coe_units_inv, Matrix.charpoly_units_conj, Matrix.charpoly_diagonal]
  rw [Polynomial.roots_prod _ _ (Finset.prod_ne_zero_iff.mpr fun i _ => Polynomial.X_sub_C_ne_zero _)]
  simp [Multiset.bind_singleton]

theorem eig_injective (L : Lapack n) (hL : L.EigOk) {A : Matrix n n ℂ} (h : Simple A) : Function.Injective (L.eig A).1 := by
  obtain ⟨lam, V, hi, hV, hA⟩ := h
  obtain ⟨h1, h2, -⟩ := hL A ⟨lam, V, hV, hA⟩
  have e := (charpoly_of_similar h1 h2).symm.trans (charpoly_of_similar hV hA)
  have hn : (Finset.univ.val.map lam).Nodup := Finset.univ.nodup.map hi
  rw [← e] at hn
  intro i j hij
  exact Multiset.inj_on_of_nodup_map hn i (Finset.mem_univ i) j (Finset.mem_univ j) hij

/-- The derivative `dexp` returns for the methods which approximate. -/
theorem dexp_error (L : Lapack n) (hL : L.EigOk) (hE : L.ExpmOk) (A D : Matrix n n ℂ) (hA : Aᴴ = -A) (hD : Dᴴ = -D) (hd : Simple A)
    (m : Method) (hm : m = .approx ∨ m = .first ∨ m = .second ∨ m = .third) (s : ℝ) (skew : Bool) (ε : ℝ) (hε : 0 < ε) :
    ∃ g, (∀ ce, dexp L A D (s : ℂ) ce m skew ε = .ok ⟨if ce then some (NormedSpace.exp ((s : ℂ) • A)) else none, some g⟩) ∧
      ‖g - dexact A D s‖ ≤ methodError m ‖A‖ ‖D‖ s ε := by
  have hd' : Diagonalizable A := by
    obtain ⟨lam, V, -, h⟩ := hd
    exact ⟨lam, V, h⟩
  have hexp := c20_normal_partial L hL A hd' (by rw [hA]; simp) (eig_injective L hL hd) s
  have hT : ‖dexact A D s - s • D‖ ≤ ‖D‖ * ‖A‖ * |s| ^ 2 ∧
    ‖dexact A D s - s • D - (s ^ 2 / 2) • (A * D + D * A)‖ ≤ ‖D‖ * ‖A‖ ^ 2 / 2 * |s| ^ 3 ∧
    ‖dexact A D s - s • D - (s ^ 2 / 2) • (A * D + D * A) - (s ^ 3 / 6) • (A * A * D + D * A * A + A * D * A)‖ ≤
      ‖D‖ * ‖A‖ ^ 3 / 6 * |s| ^ 4 := by
    rcases le_total 0 s with h | h
    · rw [abs_of_nonneg h]
      exact dexact_taylor A D hA h
    · rw [abs_of_nonpos h]
      have k := dexact_taylor (-A) (-D) (by rw [Matrix.conjTranspose_neg, hA]) (neg_nonneg.mpr h)
      rw [dexact_neg, norm_neg, norm_neg] at k
      have e1 : (-s) • (-D) = s • D := neg_smul_neg s D
      have e2 : ((-s) ^ 2 / 2) • (-A * -D + -D * -A) = (s ^ 2 / 2) • (A * D + D * A) := by
        rw [neg_mul_neg, neg_mul_neg, neg_sq]
      have e3 : ((-s) ^ 3 / 6) • (-A * -A * -D + -D * -A * -A + -A * -D * -A) = (s ^ 3 / 6) • (A * A * D + D * A * A + A * D * A) := by
        have : -A * -A * -D + -D * -A * -A + -A * -D * -A = -(A * A * D + D * A * A + A * D * A) := by noncomm_ring
        rw [this, smul_neg, ← neg_smul]
        congr 1
        ring
      rw [e1, e2, e3] at k
      exact k
  rcases hm with rfl | rfl | rfl | rfl
  · refine ⟨(1 / (ε : ℂ)) • (NormedSpace.exp ((s : ℂ) • (A + (ε : ℂ) • D)) - NormedSpace.exp ((s : ℂ) • A)), fun ce => ?_, ?_⟩
    · simp only [dexp, hexp, bind, Except.bind, pure, Except.pure]
      rw [hE]
    · have k := dexact_difference A D hA hD s hε
      have e : (1 / (ε : ℂ)) = ((1 / ε : ℝ) : ℂ) := by push_cast; rfl
      simp only [e, Complex.coe_smul]
      refine k.trans (le_of_eq ?_)
      simp only [methodError]
      rw [mul_pow, sq_abs]
  · refine ⟨(s : ℂ) • D, fun ce => ?_, ?_⟩
    · simp only [dexp, hexp, bind, Except.bind, pure, Except.pure]
    · rw [norm_sub_rev, Complex.coe_smul]
      refine hT.1.trans (le_of_eq ?_)
      simp only [methodError]
      ring
  · refine ⟨(s : ℂ) • D + ((s : ℂ) * s * (1 / 2)) • (A * D + D * A), fun ce => ?_, ?_⟩
    · simp only [dexp, hexp, bind, Except.bind, pure, Except.pure]
    · have e : (s : ℂ) * s * (1 / 2) = ((s ^ 2 / 2 : ℝ) : ℂ) := by push_cast; ring
      rw [norm_sub_rev, e, Complex.coe_smul, Complex.coe_smul, ← sub_sub]
      refine hT.2.1.trans (le_of_eq ?_)
      simp only [methodError]
      ring
  · refine ⟨(s : ℂ) • D + ((s : ℂ) * s * (1 / 2)) • (A * D + D * A) + ((s : ℂ) * s * s * (1 / 6)) • (A * A * D + D * A * A + A * D * A),
      fun ce => ?_, ?_⟩
    · simp only [dexp, hexp, bind, Except.bind, pure, Except.pure]
    · have e : (s : ℂ) * s * (1 / 2) = ((s ^ 2 / 2 : ℝ) : ℂ) := by push_cast; ring
      have e' : (s : ℂ) * s * s * (1 / 6) = ((s ^ 3 / 6 : ℝ) : ℂ) := by push_cast; ring
      rw [norm_sub_rev, e, e', Complex.coe_smul, Complex.coe_smul, Complex.coe_smul, ← sub_sub, ← sub_sub]
      refine hT.2.2.trans (le_of_eq ?_)
      simp only [methodError]
      ring

/-- **C122** For skew Hermitian generators with pairwise different eigenvalues the derivative returned by `dexp` with a method which
approximates differs from the derivative of the exponential by at most the stated bound, in the operator norm. -/
theorem c122_dexp (L : Lapack n) (hL : L.EigOk) (hE : L.ExpmOk) (A D : Matrix n n ℂ) (hA : Aᴴ = -A) (hD : Dᴴ = -D) (hd : Simple A)
    (m : Method) (hm : m = .approx ∨ m = .first ∨ m = .second ∨ m = .third) (s : ℝ) (ce skew : Bool) (ε : ℝ) (hε : 0 < ε) :
    ∃ g G, dexp L A D (s : ℂ) ce m skew ε = .ok ⟨if ce then some (NormedSpace.exp ((s : ℂ) • A)) else none, some g⟩ ∧
      MatDeriv (fun x : ℝ => NormedSpace.exp ((s : ℂ) • (A + (x : ℂ) • D))) G 0 ∧ ‖g - G‖ ≤ methodError m ‖A‖ ‖D‖ s ε := by
  obtain ⟨g, h1, h2⟩ := dexp_error L hL hE A D hA hD hd m hm s skew ε hε
  exact ⟨g, _, h1 ce, dexact_deriv A D s, h2⟩

/-! ## The solver -/

/-- The derivatives read from a solver, for every method whose derivatives are numbers. -/
theorem readDeriv_of {m : Type} {p : SPar n m} {τ : List ℝ} {u : Pulse} {s : St n m} (h : Ready p τ u s) (hv : p.Valid τ)
    (hst : Stable p.cfg) (happ : p.approx = .none) (B : Nat → Nat → Matrix n n ℂ)
    (hB : ∀ t c, t < (p.xTimes τ).length → c < p.ctrl.length →
      dexpGrad p.L p.method p.skew ((-Complex.I) • hamiltonian (p.drift.getD t 0) p.ctrl (u.getD t [])) ((-Complex.I) • p.ctrl.getD c 0)
        ((p.xTimes τ).getD t 0) = some (B t c)) :
    ∃ d s', readDeriv p.cfg s = (.ok d, s') ∧ plainDerivs d = .ok ((List.range p.ctrl.length).map fun c =>
      (List.range (p.xTimes τ).length).map fun t => B t c) ∧ Ready p τ u s' := by
  obtain ⟨y, hy⟩ := h.shape
  obtain ⟨hul, hrow⟩ := ampsOf_shape p.cfg τ y u hy
  have hul' : u.length = (p.xTimes τ).length := hul
  have hap' : p.cfg.approx = .none := happ
  have h1 := readDeriv_ok hst h.inv
  have hcells := cellsD_ok p.cfg hv.2.2 (p.xTimes τ) u
    (by show _ ≤ (schroedGens p.drift p.ctrl u).length; rw [schroedGens_length, hv.2.1]) (p.dirs_ok hv.1 _ _)
  have hd : specDeriv p.cfg s.times u = .ok (byControl p.cfg.nCtrl
      ((cellsD p.cfg (p.xTimes τ) u).1.map Prod.snd)) := by
    simp only [specDeriv, hap', h.times, hcells, orErr]
  obtain ⟨h3, h4⟩ := h1
  rw [hd] at h3
  obtain ⟨h5, h6⟩ := h4 ⟨_, h3⟩
  refine ⟨_, _, Prod.ext h3 rfl, ?_, h5, h6.trans h.times, h.shape⟩
  have hn : p.cfg.nCtrl = p.ctrl.length := rfl
  unfold plainDerivs byControl
  rw [hcells, List.map_map, hn]
  refine allOk_map _ _ _ fun c hc => ?_
  have hc' := List.mem_range.mp hc
  simp only [Function.comp, List.map_map]
  refine allOk_map _ _ _ fun t ht => ?_
  have ht' := List.mem_range.mp ht
  have h7 : t < p.drift.length := by rw [hv.2.1]; exact ht'
  have h8 : t < u.length := by omega
  have hdir : (p.cfg.dirs (p.xTimes τ) u).getD t [] = p.ctrl.map fun H => (-Complex.I) • H := by
    show (List.replicate (p.xTimes τ).length _).getD t [] = _
    rw [List.getD_eq_getElem?_getD, List.getElem?_replicate, if_pos ht']
    rfl
  have hgen : (p.cfg.gens u).getD t 0 = (-Complex.I) • hamiltonian (p.drift.getD t 0) p.ctrl (u.getD t []) := by
    rw [List.getD_eq_getElem?_getD]
    show ((schroedGens p.drift p.ctrl u)[t]?).getD 0 = _
    rw [schroedGens_getElem p.drift p.ctrl u t _ _ (List.getElem?_eq_getElem h7) (List.getElem?_eq_getElem h8)
      (hrow _ (List.getElem_mem h8)), List.getD_eq_getElem _ _ h7, List.getD_eq_getElem _ _ h8]
    rfl
  have hb := hB t c ht' hc'
  rw [List.getD_eq_getElem _ _ hc'] at hb
  simp only [Function.comp, hdir, hgen, List.getElem?_map, List.getElem?_eq_getElem hc', Option.map_some]
  show (match some (gradOf p.cfg _ _ _) with | some (some D) => _ | _ => _) = _
  unfold gradOf
  change (match some (dexpGrad p.L p.method p.skew _ _ _) with | some (some D) => _ | _ => _) = _
  rw [hb]

/-- The same for everything a gradient reads. -/
theorem readTrace_of {m : Type} {p : SPar n m} {τ : List ℝ} {u : Pulse} {s : St n m} (h : Ready p τ u s) (hv : p.Valid τ)
    (hst : Stable p.cfg) (happ : p.approx = .none) (hne : p.xTimes τ ≠ []) (B : Nat → Nat → Matrix n n ℂ)
    (hB : ∀ t c, t < (p.xTimes τ).length → c < p.ctrl.length →
      dexpGrad p.L p.method p.skew ((-Complex.I) • hamiltonian (p.drift.getD t 0) p.ctrl (u.getD t [])) ((-Complex.I) • p.ctrl.getD c 0)
        ((p.xTimes τ).getD t 0) = some (B t c)) :
    ∃ tr s', readTrace p.cfg s = (.ok tr, s') ∧ tr.Of p.init (p.steps τ u) p.ctrl.length ∧
      ∀ t c, t < (p.xTimes τ).length → c < p.ctrl.length → tr.derivAt t c = some (B t c) := by
  obtain ⟨f, s1, e1, hf, r1⟩ := h.fwd hv hst
  obtain ⟨r, s2, e2, hr, r2⟩ := r1.rev hv hst hne
  obtain ⟨d, s3, e3, hd, r3⟩ := readDeriv_of r2 hv hst happ B hB
  refine ⟨⟨f, (List.range p.ctrl.length).map fun c =>
    (List.range (p.xTimes τ).length).map fun t => B t c, r⟩, s3, ?_, ⟨hf, hr, ?_⟩, fun t c ht hc => ?_⟩
  · unfold readTrace
    rw [e1]; simp only
    rw [e2]; simp only
    rw [e3]; simp only
    rw [hd]
  · refine ⟨by simp, fun row hrow => ?_⟩
    obtain ⟨c, -, rfl⟩ := List.mem_map.mp hrow
    simp [steps_length]
  · simp [Trace.derivAt, List.getElem?_range hc, List.getElem?_range ht]

/-- **C122** With the methods 'approx', 'first_order', 'second_order' and 'third_order' and Hamiltonians with pairwise different
eigenvalues, `costs()` returns the exact infidelity and every entry of the gradient is within twice the error of the method of its
derivative; the step width of 'approx' is `1e-10`. -/
theorem c122_gradient (p : SPar n n) (τ : List ℝ) (hv : p.Valid τ) (hmeth : p.method = .approx ∨ p.method = .first ∨ p.method = .second ∨ p.method = .third)
    (happ : p.approx = .none) (hcd : p.calcDeriv = true) (hL : p.L.EigOk) (hE : p.L.ExpmOk) (hne : p.xTimes τ ≠ [])
    (hd : ∀ H ∈ p.drift, H.IsHermitian) (hc : ∀ H ∈ p.ctrl, H.IsHermitian) (hi : p.init ∈ Matrix.unitaryGroup n ℂ)
    (cl : Closest) (cs : Option (List n)) (hcs : ∀ l, cs = some l → l ≠ [] ∧ l.Nodup) (mcu : Bool) (hm : mcu = false ∨ cs = none)
    (T : Matrix (CompIdx cs) (CompIdx cs) ℂ) (hT : T ∈ Matrix.unitaryGroup (CompIdx cs) ℂ)
    (U : Fin (p.xTimes τ).length → Fin p.ctrl.length → ℝ) (H : Fin (p.xTimes τ).length → Matrix n n ℂ)
    (hH : ∀ t, H t = p.drift.getD t 0 + ∑ c, (U t c : ℂ) • p.ctrl.get c) (hS : ∀ t, Simple (H t)) :
    ∃ g G : Fin (p.xTimes τ).length → Fin p.ctrl.length → ℝ,
      (∀ s, Ready p τ (rowsOf U) s →
        (costOn (opCosts cl cs T mcu) p.cfg s).1 = .ok (1 - entFid cl cs T (noisyFinal p [] τ (rowsOf U) 0) mcu) ∧
        (gradOn (fun tr => opGrad cl cs T mcu tr.fwd tr.dP tr.rev) p.cfg s).1 = .ok (rowsOf g)) ∧
      (∃ L : (Fin (p.xTimes τ).length → Fin p.ctrl.length → ℝ) →L[ℝ] ℝ,
        HasFDerivAt (fun V : Fin (p.xTimes τ).length → Fin p.ctrl.length → ℝ =>
          1 - entFid cl cs T (noisyFinal p [] τ (rowsOf V) 0) mcu) L U ∧ ∀ V, L V = ∑ t, ∑ k, G t k * V t k) ∧
      ∀ t c, |g t c - G t c| ≤ 2 * methodError p.method ‖H t‖ ‖p.ctrl.get c‖ (p.xTimes τ)[t] (1 / 10 ^ 10) := by
  have hcs1 : cs ≠ some [] := fun h => (hcs _ h).1 rfl
  have hcs2 : ∀ l, cs = some l → l.Nodup := fun l h => (hcs l h).2
  have hnc : 0 < p.ctrl.length := List.length_pos_iff.mpr hv.1
  have hst : Stable p.cfg := Or.inl ⟨happ, hcd⟩
  -- a solver whose derivatives are exact
  obtain ⟨L', -, -, -, hL'⟩ := Solver.lapack_exists n
  set q : SPar n n := { p with L := { p.L with frechet := L'.frechet }, method := .frechet } with hq
  have hFq : q.L.FrechetOk := hL'
  have hEq : q.L.ExpmOk := hE
  have hfin : ∀ u, q.final τ u = noisyFinal p [] τ u 0 := fun u => clean_final q τ rfl hEq [] u
  have hu := rowsOf_shape U
  have hham : ∀ t : Fin (p.xTimes τ).length, hamiltonian (p.drift.getD t 0) p.ctrl ((rowsOf U).getD t []) = H t := by
    intro t
    rw [rowsOf_get U t t.2, hamiltonian_sum, hH t]
  have hdh : ∀ t : Nat, (p.drift.getD t 0).IsHermitian := by
    intro t
    rw [List.getD_eq_getElem?_getD]
    cases h : p.drift[t]? with
    | none => exact Matrix.isHermitian_zero
    | some H => exact hd _ (List.mem_of_getElem? h)
  have hHh : ∀ t, (H t).IsHermitian := fun t => hham t ▸ hamiltonian_isHermitian _ (hdh t) hc
  have hskew : ∀ {X : Matrix n n ℂ}, X.IsHermitian → ((-Complex.I) • X)ᴴ = -((-Complex.I) • X) := by
    intro X hX
    rw [Matrix.conjTranspose_smul, hX.eq]
    simp
  have hsimple : ∀ t, Simple ((-Complex.I) • H t) := by
    intro t
    obtain ⟨lam, V, h1, h2, h3⟩ := hS t
    refine ⟨fun j => -Complex.I * lam j, V, fun i j hij => h1 (mul_left_cancel₀ (by simp) hij), h2, ?_⟩
    rw [Matrix.smul_mul, h3, ← Matrix.mul_smul]
    congr 1
    ext i j
    by_cases hij : i = j
    · subst hij; simp
    · simp [hij]
  have hnorm : ∀ X : Matrix n n ℂ, ‖(-Complex.I) • X‖ = ‖X‖ := by
    intro X
    rw [norm_smul]
    simp
  have hkey : ∀ (t : Fin (p.xTimes τ).length) (c : Fin p.ctrl.length), ∃ b,
      dexpGrad p.L p.method p.skew ((-Complex.I) • H t) ((-Complex.I) • p.ctrl.get c) (p.xTimes τ)[t] = some b ∧
      dexpProp p.L p.method p.skew ((-Complex.I) • H t) (p.xTimes τ)[t] = NormedSpace.exp ((((p.xTimes τ)[t] : ℝ) : ℂ) • (-Complex.I) • H t) ∧
      ‖b - q.dstep τ (rowsOf U) t c‖ ≤ methodError p.method ‖H t‖ ‖p.ctrl.get c‖ (p.xTimes τ)[t] (1 / 10 ^ 10) := by
    intro t c
    have hcc := hc _ (List.get_mem p.ctrl c)
    obtain ⟨b, h1, h2⟩ := dexp_error p.L hL hE ((-Complex.I) • H t) ((-Complex.I) • p.ctrl.get c) (hskew (hHh t)) (hskew hcc) (hsimple t)
      p.method hmeth (p.xTimes τ)[t] p.skew dexpEps (by norm_num [dexpEps])
    have h3 := h1 true
    rw [dexp_eq p.L hv.2.2] at h3
    simp only [if_true, Except.ok.injEq, DexpResult.mk.injEq, Option.some.injEq] at h3
    refine ⟨b, h3.2, h3.1, ?_⟩
    have hds : q.dstep τ (rowsOf U) t c = dexact ((-Complex.I) • H t) ((-Complex.I) • p.ctrl.get c) (p.xTimes τ)[t] := by
      have k1 := hFq ((((p.xTimes τ)[t] : ℝ) : ℂ) • (-Complex.I) • H t) ((((p.xTimes τ)[t] : ℝ) : ℂ) • (-Complex.I) • p.ctrl.get c)
      have k2 := (dexact_deriv ((-Complex.I) • H t) ((-Complex.I) • p.ctrl.get c) (p.xTimes τ)[t])
      have e : q.dstep τ (rowsOf U) t c = q.L.frechet ((((p.xTimes τ)[t] : ℝ) : ℂ) • (-Complex.I) • H t)
          ((((p.xTimes τ)[t] : ℝ) : ℂ) • (-Complex.I) • p.ctrl.get c) := by
        unfold SPar.dstep
        show q.L.frechet (((p.xTimes τ).getD t 0 : ℂ) • (-Complex.I) • hamiltonian (p.drift.getD t 0) p.ctrl ((rowsOf U).getD t []))
          (((p.xTimes τ).getD t 0 : ℂ) • (-Complex.I) • p.ctrl.getD c 0) = _
        rw [hham t, List.getD_eq_getElem _ _ t.2, List.getD_eq_getElem _ _ c.2]
        rfl
      rw [e]
      ext i j
      refine (k1 i j).unique ((k2 i j).congr_of_eventuallyEq (Filter.Eventually.of_forall fun x => ?_))
      simp only [smul_add]
      rw [smul_comm (x : ℂ)]
    rw [hds]
    rw [hnorm, hnorm] at h2
    refine h2.trans (le_of_eq ?_)
    norm_num [dexpEps]
  choose B hB1 hB2 hB3 using hkey
  have hsteps : p.steps τ (rowsOf U) = q.steps τ (rowsOf U) := by
    refine List.map_congr_left fun t ht => ?_
    have ht' := List.mem_range.mp ht
    unfold SPar.step
    rw [propOf_exp q rfl hEq]
    show propOf p.cfg ((-Complex.I) • hamiltonian (p.drift.getD t 0) p.ctrl ((rowsOf U).getD t [])) ((p.xTimes τ).getD t 0) =
      NormedSpace.exp ((((p.xTimes τ).getD t 0 : ℝ) : ℂ) • (-Complex.I) • hamiltonian (p.drift.getD t 0) p.ctrl ((rowsOf U).getD t []))
    have := hB2 ⟨t, ht'⟩ ⟨0, hnc⟩
    rw [hham ⟨t, ht'⟩, List.getD_eq_getElem _ _ ht']
    unfold propOf
    rw [if_pos (show p.cfg.calcDeriv = true from hcd)]
    exact this
  have hstepu : ∀ P ∈ q.steps τ (rowsOf U), P ∈ Matrix.unitaryGroup n ℂ := by
    intro P hP
    obtain ⟨t, -, rfl⟩ := List.mem_map.mp hP
    exact propOf_unitary q (Or.inl ⟨rfl, hEq⟩) _ (hamiltonian_isHermitian _ (hdh t) hc) _
  have hlast : p.final τ (rowsOf U) = noisyFinal p [] τ (rowsOf U) 0 := by
    rw [← hfin]
    unfold SPar.final
    rw [hsteps]
  -- the value of an entry of the gradient, given the derivative of the propagator
  set E := noisyFinal p [] τ (rowsOf U) 0 with hEdef
  have hEn : ‖E‖ ≤ 1 := by
    rw [hEdef, ← hfin]
    exact norm_unitary_le (foldl_unitary _ _ hstepu hi)
  set f : Matrix n n ℂ → ℝ := fun X => 2 / dim cs / dim cs *
    (star (truncTo cl cs false E * Tᴴ).trace * (truncTo cl cs false X * Tᴴ).trace).re with hf
  set R : Fin (p.xTimes τ).length → Matrix n n ℂ := fun t => ((q.steps τ (rowsOf U)).drop (t + 1)).foldl (fun F P => P * F) 1 with hR
  set F : Fin (p.xTimes τ).length → Matrix n n ℂ := fun t => ((q.steps τ (rowsOf U)).take t).foldl (fun F P => P * F) p.init with hF
  have hRn : ∀ t, ‖R t‖ ≤ 1 := fun t =>
    norm_unitary_le (foldl_unitary _ _ (fun P hP => hstepu P (List.mem_of_mem_drop hP)) (one_mem _))
  have hFn : ∀ t, ‖F t‖ ≤ 1 := fun t =>
    norm_unitary_le (foldl_unitary _ _ (fun P hP => hstepu P (List.mem_of_mem_take hP)) hi)
  have hrev : ∀ {r : List (Matrix n n ℂ)}, IsReversed (q.steps τ (rowsOf U)) r → ∀ t : Fin (p.xTimes τ).length,
      r.reverse[(t : Nat) + 1]? = some (R t) := by
    intro r hr t
    have hlen : (q.steps τ (rowsOf U)).length = (p.xTimes τ).length := steps_length q τ _
    have ht := t.2
    rw [List.getElem?_reverse (by rw [hr.1, hlen]; omega), isReversed_unique hr _ (by rw [hr.1]; omega)]
    simp only [hR]
    congr 3
    rw [hr.1, hlen]
    omega
  have hfwd : ∀ {r : List (Matrix n n ℂ)}, IsForward p.init (q.steps τ (rowsOf U)) r → ∀ t : Fin (p.xTimes τ).length,
      r[(t : Nat)]? = some (F t) := by
    intro r hr t
    rw [isForward_unique hr t (by rw [steps_length]; exact t.2.le)]
  have hps : q.steps τ (rowsOf U) ≠ [] := by
    intro h0
    apply hne
    have := steps_length q τ (rowsOf U)
    rw [h0] at this
    exact List.length_eq_zero_iff.mp this.symm
  have hder : ∀ (t : Fin (p.xTimes τ).length) (c : Fin p.ctrl.length),
      HasDerivAt (fun x : ℝ => 1 - entFid cl cs T (noisyFinal p [] τ (rowsOf (U + x • unitAmp t c)) 0) mcu)
        (-f (R t * q.dstep τ (rowsOf U) t c * F t)) 0 := by
    intro t c
    obtain ⟨r, -, hr⟩ := revOf_isReversed (q.steps τ (rowsOf U)) hps
    have hf0 := fwdLoop_isForward (q.steps τ (rowsOf U)) p.init
    have hs := sweep_of q τ (rowsOf U) t c hu.1 hu.2 t.2 c.2 rfl hEq hFq _
      (fun z => fwdLoop_isForward (q.steps τ (bump (rowsOf U) t c z)) p.init)
    obtain ⟨R0, F0, e1, e2, e3⟩ := final_set hf0 hr t (by rw [steps_length]; exact t.2)
    rw [hrev hr t] at e1
    rw [hfwd hf0 t] at e2
    obtain rfl := Option.some.inj e1
    obtain rfl := Option.some.inj e2
    have hx : ∀ x : ℝ, noisyFinal p [] τ (rowsOf (U + x • unitAmp t c)) 0 = R t * q.step τ (bump (rowsOf U) t c x) t * F t := by
      intro x
      have k1 := e3 _ _ (hs.forward x)
      have k2 := final_last (p := q) (fwdLoop_isForward (q.steps τ (bump (rowsOf U) t c x)) p.init)
      have k3 := Option.some.inj (k2.symm.trans k1)
      rw [← k3, rowsOf_bump, hfin]
    have hmd := ((hs.deriv.const_mul (R t)).mul_const (F t))
    have k := (entFid_deriv cl cs mcu hm T hmd).const_sub 1
    refine (k.congr_of_eventuallyEq (Filter.Eventually.of_forall fun x => ?_)).congr_deriv ?_
    · simp only [hx]
    · rw [← hx 0, zero_smul, add_zero]
  have hdiff : Differentiable ℝ fun V : Fin (p.xTimes τ).length → Fin p.ctrl.length → ℝ =>
      1 - entFid cl cs T (noisyFinal p [] τ (rowsOf V) 0) mcu := by
    have h1 : MatDiff fun V : Fin (p.xTimes τ).length → Fin p.ctrl.length → ℝ => noisyFinal p [] τ (rowsOf V) 0 := by
      have := final_diff q τ rfl hEq
      simp only [hfin] at this
      exact this
    have h2 : MatDiff fun V : Fin (p.xTimes τ).length → Fin p.ctrl.length → ℝ => truncTo cl cs mcu (noisyFinal p [] τ (rowsOf V) 0) := by
      simp only [truncTo_eq cl cs mcu hm]
      exact fun i j => h1 (sel cs i) (sel cs j)
    unfold entFid
    simp only [div_eq_mul_inv]
    refine Differentiable.const_sub (Differentiable.mul_const (Differentiable.mul_const ?_ _) _) _
    exact differentiable_norm_sq ((MatDiff.const _).mul h2).trace
  have hen : ∀ (A : Fin (p.xTimes τ).length → Fin p.ctrl.length → ℝ) (t : Fin (p.xTimes τ).length) (c : Fin p.ctrl.length),
      entry (rowsOf A) t c = some (A t c) := by
    intro A t c
    simp [entry, rowsOf]
  set G : Fin (p.xTimes τ).length → Fin p.ctrl.length → ℝ := fun t c => -f (R t * q.dstep τ (rowsOf U) t c * F t) with hG
  obtain ⟨G', hG', L, hL1, hL2⟩ := total_of_entries _ hdiff U (rowsOf G) (rowsOf_shape G) fun t c => ⟨G t c, hen G t c, hder t c⟩
  have hGG : ∀ t c, G' t c = G t c := by
    intro t c
    have h1 := hen G t c
    rw [hG', hen G' t c] at h1
    exact Option.some.inj h1
  refine ⟨fun t c => -f (R t * B t c * F t), G, fun s hr => ⟨?_, ?_⟩, ⟨L, hL1, fun V => ?_⟩, fun t c => ?_⟩
  · obtain ⟨fw, s', h1, h2, -⟩ := hr.fwd hv hst
    unfold costOn
    rw [h1]
    show opCosts cl cs T mcu fw = _
    unfold opCosts
    rw [last_ok (final_last h2), hlast]
    rfl
  · have hBn : ∀ t c, t < (p.xTimes τ).length → c < p.ctrl.length →
        dexpGrad p.L p.method p.skew ((-Complex.I) • hamiltonian (p.drift.getD t 0) p.ctrl ((rowsOf U).getD t []))
          ((-Complex.I) • p.ctrl.getD c 0) ((p.xTimes τ).getD t 0) =
        some ((fun t c => if h : t < (p.xTimes τ).length ∧ c < p.ctrl.length then B ⟨t, h.1⟩ ⟨c, h.2⟩ else 0) t c) := by
      intro t c ht hc'
      simp only [ht, hc', and_self, dite_true]
      rw [← hB1 ⟨t, ht⟩ ⟨c, hc'⟩, ← hham ⟨t, ht⟩, List.getD_eq_getElem _ _ ht, List.getD_eq_getElem _ _ hc']
      rfl
    obtain ⟨tr, s', e1, hOf, hD⟩ := readTrace_of hr hv hst happ hne _ hBn
    obtain ⟨gl, k1, k2, k3⟩ := gradTable_entry hOf hnc f
    have hlen : (p.steps τ (rowsOf U)).length = (p.xTimes τ).length := steps_length _ _ _
    rw [hlen] at k2
    rw [hsteps] at hOf
    unfold gradOn
    rw [e1]
    show opGrad cl cs T mcu tr.fwd tr.dP tr.rev = _
    have hl : tr.fwd.getLast? = some E := by
      have := final_last (p := q) (f := tr.fwd) hOf.forward
      rw [hfin] at this
      exact this
    unfold opGrad derivEntFid
    rw [if_neg hcs1, last_ok hl]
    simp only [bind, Except.bind]
    rw [k1]
    have hneg : negTable gl = rowsOf fun t c => -f (R t * B t c * F t) := by
      have k2' := rect_neg k2
      refine List.ext_getElem (by simp [rowsOf, k2'.1]) fun i h1 h2 => ?_
      have hi' : i < (p.xTimes τ).length := by simpa [rowsOf] using h2
      refine List.ext_getElem (by rw [k2'.2 _ (List.getElem_mem _)]; simp [rowsOf]) fun j h3 h4 => ?_
      have hj' : j < p.ctrl.length := by simpa [rowsOf] using h4
      have hDD := hD i j hi' hj'
      simp only [hi', hj', and_self, dite_true] at hDD
      have := entry_neg (k3 i j _ _ _ (hrev hOf.reversed ⟨i, hi'⟩) hDD (hfwd hOf.forward ⟨i, hi'⟩))
      simp only [entry, List.getElem?_eq_getElem h1, Option.bind_some, List.getElem?_eq_getElem h3, Option.some.injEq] at this
      simp [this, rowsOf]
    rw [← hneg]
    rfl
  · rw [hL2]
    simp only [hGG]
  · have := entry_close cl cs hcs2 hT hEn (hRn t) (hFn t) (D := B t c) (D' := q.dstep τ (rowsOf U) t c)
    simp only [hG]
    rw [show -f (R t * B t c * F t) - -f (R t * q.dstep τ (rowsOf U) t c * F t) =
      -(f (R t * B t c * F t) - f (R t * q.dstep τ (rowsOf U) t c * F t)) by ring, abs_neg]
    exact this.trans (mul_le_mul_of_nonneg_left (hB3 t c) (by norm_num))

/-! ## Concrete cases -/

namespace Ex122

/-- A Hermitian qubit operator whose diagonal is not constant has two different eigenvalues. -/
theorem simple {H : Matrix (Fin 2) (Fin 2) ℂ} (hH : H.IsHermitian) (hne : H 0 0 ≠ H 1 1) : Simple H := by
  obtain ⟨L, hL, -⟩ := Solver.lapack_exists (Fin 2)
  obtain ⟨h1, h2⟩ := hL H hH
  have hV : IsUnit (L.eigh H).2 := (Matrix.isUnit_iff_isUnit_det _).mpr (Matrix.UnitaryGroup.det_isUnit ⟨_, h1⟩)
  refine ⟨_, _, fun i j hij => ?_, hV, h2⟩
  by_contra hne'
  apply hne
  have hall : ∀ k, ((L.eigh H).1 k : ℂ) = ((L.eigh H).1 0 : ℂ) := by
    intro k
    fin_cases k
    · rfl
    · fin_cases i <;> fin_cases j <;> simp_all
  have hd : Matrix.diagonal (fun k => ((L.eigh H).1 k : ℂ)) = ((L.eigh H).1 0 : ℂ) • 1 := by
    rw [funext hall]
    ext a b
    by_cases hab : a = b
    · subst hab; simp
    · simp [hab]
  rw [hd] at h2
  have h3 : H = ((L.eigh H).1 0 : ℂ) • 1 := by
    refine hV.mul_right_cancel ?_
    rw [h2]
    simp
  rw [h3]
  simp

/-- The solver of a qubit with a method which approximates. -/
noncomputable def par (L : Lapack (Fin 2)) (m : Method) : SPar (Fin 2) (Fin 2) := { qubitPar L .none true with method := m }

theorem amps (L : Lapack (Fin 2)) (m : Method) (V : Fin 3 → Fin 2 → ℝ) : ampsOf (par L m).cfg [1, 2, 3] (rowsOf V) = some (rowsOf V) :=
  ampsOf_simple L m true .none 1 _ _ [1, 2, 3] (rowsOf V) (by simp [rowsOf]) (rowsOf_shape V).1 (rowsOf_shape V).2

end Ex122

/-- `c122_gradient` applies: every pulse for a qubit with two controls and steps of lengths 1, 2 and 3, every method which approximates. -/
example (cl : Closest) (m : Method) (hm : m = .approx ∨ m = .first ∨ m = .second ∨ m = .third) (U : Fin 3 → Fin 2 → ℝ) :
    ∃ (L : Lapack (Fin 2)) (g G : Fin 3 → Fin 2 → ℝ) (H : Fin 3 → Matrix (Fin 2) (Fin 2) ℂ),
    (gradOn (fun tr => opGrad cl none 1 false tr.fwd tr.dP tr.rev) (Ex122.par L m).cfg
      (fresh (Ex122.par L m).cfg [1, 2, 3] (rowsOf U))).1 = .ok (rowsOf g) ∧
    ∀ t c, |g t c - G t c| ≤ 2 * methodError m ‖H t‖ ‖(qubitPar L .none true).ctrl.get c‖ (([1, 2, 3] : List ℝ).get t) (1 / 10 ^ 10) := by
  obtain ⟨L, -, hEig, hE, hF⟩ := Solver.lapack_exists (Fin 2)
  have hs := Ex117.system (L := L) hE [] (by simp)
  obtain ⟨g, G, h1, -, h3⟩ := c122_gradient (Ex122.par L m) [1, 2, 3]
    ⟨by simp [Ex122.par, qubitPar], rfl, by rcases hm with rfl | rfl | rfl | rfl <;> simp [Ex122.par]⟩ hm rfl rfl hEig hE
    (by simp [Ex122.par, qubitPar]) hs.drift hs.ctrl hs.init cl none (by simp) false (Or.inl rfl) 1 (one_mem _) U _ (fun t => rfl) (fun t => by
      have hdrift : (Ex122.par L m).drift.getD t 0 = !![1, 0; 0, -1] := by
        revert t
        intro (t : Fin 3)
        fin_cases t <;> rfl
      refine Ex122.simple ?_ ?_
      · rw [hdrift]
        refine (hs.drift _ (by simp [qubitPar])).add ?_
        rw [Matrix.IsHermitian, Matrix.conjTranspose_sum]
        refine Finset.sum_congr rfl fun c _ => ?_
        rw [Matrix.conjTranspose_smul, (hs.ctrl _ (List.get_mem _ c)).eq]
        simp
      · rw [hdrift]
        have : ∀ k : Fin 2, (∑ c, (U t c : ℂ) • (qubitPar L .none true).ctrl.get c) k k = 0 := by
          intro k
          show (∑ c : Fin 2, (U t c : ℂ) • (qubitPar L .none true).ctrl.get c) k k = 0
          rw [Fin.sum_univ_two]
          fin_cases k <;> simp [qubitPar]
        intro h
        have k : (1 : ℂ) + (∑ c, (U t c : ℂ) • (qubitPar L .none true).ctrl.get c) 0 0 =
            -1 + (∑ c, (U t c : ℂ) • (qubitPar L .none true).ctrl.get c) 1 1 := h
        rw [this 0, this 1] at k
        norm_num at k)
  exact ⟨L, g, G, _, (h1 _ (ready_fresh _ _ _ _ (Ex122.amps L m U))).2, h3⟩

/-- `c122_dexp` applies, to matrices which do not commute. -/
example (m : Method) (hm : m = .approx ∨ m = .first ∨ m = .second ∨ m = .third) : ∃ (L : Lapack (Fin 2)) (A D g G : Matrix (Fin 2) (Fin 2) ℂ),
    A * D ≠ D * A ∧ dexp L A D ((2 : ℝ) : ℂ) false m true (1 / 100) = .ok ⟨none, some g⟩ ∧
      MatDeriv (fun x : ℝ => NormedSpace.exp (((2 : ℝ) : ℂ) • (A + (x : ℂ) • D))) G 0 ∧ ‖g - G‖ ≤ methodError m ‖A‖ ‖D‖ 2 (1 / 100) := by
  obtain ⟨L, -, hEig, hE, -⟩ := Solver.lapack_exists (Fin 2)
  obtain ⟨g, G, h1, h2, h3⟩ := c122_dexp L hEig hE !![Complex.I, 0; 0, -Complex.I] !![0, 1; -1, 0]
    (by ext i j; fin_cases i <;> fin_cases j <;> simp) (by ext i j; fin_cases i <;> fin_cases j <;> simp)
    ⟨![Complex.I, -Complex.I], 1, fun i j h => by
      fin_cases i <;> fin_cases j <;> first | rfl | (exfalso; simp [Complex.ext_iff] at h; try norm_num at h), isUnit_one, by
      ext i j; fin_cases i <;> fin_cases j <;> simp⟩ m hm 2 false true (1 / 100) (by norm_num)
  refine ⟨L, _, _, g, G, fun h => ?_, h1, h2, h3⟩
  have := congrFun (congrFun h 0) 1
  simp [Matrix.mul_apply, Fin.sum_univ_two, Complex.ext_iff] at this
  norm_num at this

end
end Verif.Cost
