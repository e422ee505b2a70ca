import Mathlib.Analysis.Complex.Order
import Mathlib.Analysis.InnerProductSpace.Positive
import Mathlib.Analysis.Matrix.Order
import Mathlib.Analysis.Normed.Algebra.MatrixExponential
import Mathlib.Analysis.SpecialFunctions.Exponential
import Mathlib.LinearAlgebra.Matrix.PosDef
import Mathlib.Tactic.IntervalCases
import Mathlib.Tactic.Module
import Mathlib.Tactic.NoncommRing
import Verif.Solver.LindbladThms

/-!
# C96: the evolution of the Lindblad solver is completely positive
-/

namespace Verif.Solver
open Verif Verif.Operator Matrix
open scoped Kronecker ComplexOrder Topology
open Filter

/-! ## Product formula -/

section
variable {𝔸 : Type} [NormedRing 𝔸] [NormOneClass 𝔸] [NormedAlgebra ℝ 𝔸]

theorem norm_pow_sub_pow_le {a b : 𝔸} {M : ℝ} (ha : ‖a‖ ≤ M) (hb : ‖b‖ ≤ M) (k : Nat) :
    ‖a ^ (k + 1) - b ^ (k + 1)‖ ≤ (k + 1) * M ^ k * ‖a - b‖ := by
  have hM : 0 ≤ M := (norm_nonneg a).trans ha
  induction k with
  | zero => simp
  | succ k ih =>
    have e : a ^ (k + 2) - b ^ (k + 2) = a * (a ^ (k + 1) - b ^ (k + 1)) + (a - b) * b ^ (k + 1) := by
      rw [pow_succ' a (k + 1), pow_succ' b (k + 1)]
      noncomm_ring
    rw [e]
    calc ‖a * (a ^ (k + 1) - b ^ (k + 1)) + (a - b) * b ^ (k + 1)‖
        ≤ ‖a‖ * ‖a ^ (k + 1) - b ^ (k + 1)‖ + ‖a - b‖ * ‖b ^ (k + 1)‖ :=
          (norm_add_le _ _).trans (add_le_add (norm_mul_le _ _) (norm_mul_le _ _))
      _ ≤ M * ((k + 1) * M ^ k * ‖a - b‖) + ‖a - b‖ * M ^ (k + 1) := by
          refine add_le_add (mul_le_mul ha ih (norm_nonneg _) hM) (mul_le_mul_of_nonneg_left ?_ (norm_nonneg _))
          exact (norm_pow_le b (k + 1)).trans (pow_le_pow_left₀ (norm_nonneg _) hb _)
      _ = (((k + 1 : Nat) : ℝ) + 1) * M ^ (k + 1) * ‖a - b‖ := by push_cast; ring

/-- A curve through 1 that is differentiable there grows at most exponentially. -/
theorem norm_curve_le {f : ℝ → 𝔸} {x : 𝔸} (h0 : f 0 = 1) (hf : HasDerivAt f x 0) :
    ∃ c : ℝ, 0 ≤ c ∧ ∀ᶠ t in 𝓝 (0 : ℝ), ‖f t‖ ≤ Real.exp (c * |t|) := by
  obtain ⟨c, hc, h⟩ := hf.isBigO_sub.exists_pos
  refine ⟨c, hc.le, ?_⟩
  filter_upwards [h.bound] with t ht
  rw [h0, sub_zero, Real.norm_eq_abs] at ht
  calc ‖f t‖ = ‖(f t - 1) + 1‖ := by rw [sub_add_cancel]
    _ ≤ ‖f t - 1‖ + ‖(1 : 𝔸)‖ := norm_add_le _ _
    _ ≤ c * |t| + 1 := by rw [norm_one]; linarith
    _ ≤ Real.exp (c * |t|) := Real.add_one_le_exp _

/-- Two curves through 1 with the same velocity have the same limit of `f(1/k)^k`. -/
theorem tendsto_pow_sub {f g : ℝ → 𝔸} {x : 𝔸} (hf0 : f 0 = 1) (hg0 : g 0 = 1) (hf : HasDerivAt f x 0)
    (hg : HasDerivAt g x 0) :
    Tendsto (fun k : Nat => f ((k + 1 : ℝ)⁻¹) ^ (k + 1) - g ((k + 1 : ℝ)⁻¹) ^ (k + 1)) atTop (𝓝 0) := by
  obtain ⟨c, hc, hcf⟩ := norm_curve_le hf0 hf
  obtain ⟨d, hd, hdg⟩ := norm_curve_le hg0 hg
  have hlim : Tendsto (fun k : Nat => (k + 1 : ℝ)⁻¹) atTop (𝓝 0) :=
    tendsto_inv_atTop_zero.comp (tendsto_atTop_add_const_right _ _ tendsto_natCast_atTop_atTop)
  have hdiff : HasDerivAt (fun t => f t - g t) 0 0 := by
    have := hf.sub hg
    rw [sub_self] at this
    exact this
  have ho : Tendsto (fun k : Nat => (k + 1 : ℝ) * ‖f ((k + 1 : ℝ)⁻¹) - g ((k + 1 : ℝ)⁻¹)‖) atTop (𝓝 0) := by
    have := (hasDerivAt_iff_tendsto.1 hdiff).comp hlim
    refine this.congr fun k => ?_
    simp only [Function.comp, hf0, hg0, sub_self, sub_zero, smul_zero, norm_inv, inv_inv]
    rw [Real.norm_of_nonneg (by positivity)]
  refine squeeze_zero_norm' (a := fun k : Nat => Real.exp (c + d) * ((k + 1 : ℝ) * ‖f ((k + 1 : ℝ)⁻¹) - g ((k + 1 : ℝ)⁻¹)‖))
    ?_ (by simpa using ho.const_mul (Real.exp (c + d)))
  filter_upwards [hlim.eventually hcf, hlim.eventually hdg] with k h1 h2
  have hpos : (0 : ℝ) < (k + 1 : ℝ)⁻¹ := by positivity
  rw [abs_of_pos hpos] at h1 h2
  have b1 : ‖f ((k + 1 : ℝ)⁻¹)‖ ≤ Real.exp ((c + d) * (k + 1 : ℝ)⁻¹) :=
    h1.trans (Real.exp_le_exp.2 (mul_le_mul_of_nonneg_right (by linarith) hpos.le))
  have b2 : ‖g ((k + 1 : ℝ)⁻¹)‖ ≤ Real.exp ((c + d) * (k + 1 : ℝ)⁻¹) :=
    h2.trans (Real.exp_le_exp.2 (mul_le_mul_of_nonneg_right (by linarith) hpos.le))
  refine (norm_pow_sub_pow_le b1 b2 k).trans ?_
  have b3 : Real.exp ((c + d) * (k + 1 : ℝ)⁻¹) ^ k ≤ Real.exp (c + d) := by
    rw [← Real.exp_nat_mul]
    refine Real.exp_le_exp.2 ?_
    have : (k : ℝ) * (k + 1 : ℝ)⁻¹ ≤ 1 := by
      rw [← div_eq_mul_inv, div_le_one (by positivity)]
      linarith
    calc (k : ℝ) * ((c + d) * (k + 1 : ℝ)⁻¹) = (c + d) * ((k : ℝ) * (k + 1 : ℝ)⁻¹) := by ring
      _ ≤ (c + d) * 1 := mul_le_mul_of_nonneg_left this (by linarith)
      _ = c + d := mul_one _
  calc (k + 1 : ℝ) * Real.exp ((c + d) * (k + 1 : ℝ)⁻¹) ^ k * ‖f ((k + 1 : ℝ)⁻¹) - g ((k + 1 : ℝ)⁻¹)‖
      = Real.exp ((c + d) * (k + 1 : ℝ)⁻¹) ^ k * ((k + 1 : ℝ) * ‖f ((k + 1 : ℝ)⁻¹) - g ((k + 1 : ℝ)⁻¹)‖) := by ring
    _ ≤ _ := mul_le_mul_of_nonneg_right b3 (by positivity)
end

section
variable {n k : Type} [Fintype n] [DecidableEq n] [Fintype k]

open scoped Matrix.Norms.Operator in
/-- `(1 + A/k + B/k²)^k` tends to the exponential of `A`. -/
theorem tendsto_matrix_exp [Nonempty n] (A B : Matrix n n ℂ) :
    Tendsto (fun k : Nat => (1 + (((k + 1 : ℝ)⁻¹ : ℝ) : ℂ) • A + ((((k + 1 : ℝ)⁻¹ : ℝ) : ℂ) ^ 2) • B) ^ (k + 1)) atTop
      (𝓝 (NormedSpace.exp A)) := by
  have hf : HasDerivAt (fun t : ℝ => (1 : Matrix n n ℂ) + t • A + (t ^ 2) • B) A 0 := by
    have h1 : HasDerivAt (fun t : ℝ => t • A) ((1 : ℝ) • A) 0 := (hasDerivAt_id (0 : ℝ)).smul_const A
    have h2 : HasDerivAt (fun t : ℝ => (t ^ 2) • B) (((2 : ℕ) * (0 : ℝ) ^ (2 - 1) * 1) • B) 0 :=
      ((hasDerivAt_id (0 : ℝ)).fun_pow 2).smul_const B
    exact ((h1.const_add (1 : Matrix n n ℂ)).add h2).congr_deriv (by simp)
  have hg : HasDerivAt (fun t : ℝ => NormedSpace.exp (t • A)) A 0 := by
    exact (hasDerivAt_exp_smul_const (𝕂 := ℝ) A (0 : ℝ)).congr_deriv (by simp)
  have := tendsto_pow_sub (by simp) (by simp) hf hg
  have h2 := this.add_const (NormedSpace.exp A)
  rw [zero_add] at h2
  refine h2.congr fun k => ?_
  have e : NormedSpace.exp ((k + 1 : ℝ)⁻¹ • A) ^ (k + 1) = NormedSpace.exp A := by
    rw [← Matrix.exp_nsmul]
    congr 1
    rw [← Nat.cast_smul_eq_nsmul ℝ, smul_smul]
    push_cast
    rw [mul_inv_cancel₀ (by positivity), one_smul]
  rw [e, sub_add_cancel]
  have e2 : (1 : Matrix n n ℂ) + (k + 1 : ℝ)⁻¹ • A + ((k + 1 : ℝ)⁻¹ ^ 2) • B =
      1 + (((k + 1 : ℝ)⁻¹ : ℝ) : ℂ) • A + ((((k + 1 : ℝ)⁻¹ : ℝ) : ℂ) ^ 2) • B := by
    ext i j
    simp [Matrix.add_apply, Matrix.smul_apply]
  rw [e2]

/-! ## Complete positivity -/

/-- Block `(a, b)` of a matrix on `n × k`. -/
def block (ρ : Matrix (n × k) (n × k) ℂ) (a b : k) : Matrix n n ℂ := Matrix.of fun i j => ρ (i, a) (j, b)

/-- Specification: the super operator `P` acts on the first factor of a matrix on `n × k` and leaves the second alone:
every block is vectorised (column by column) and multiplied with `P`. -/
def actOn (P : Sup n) (ρ : Matrix (n × k) (n × k) ℂ) : Matrix (n × k) (n × k) ℂ :=
  Matrix.of fun p q => (P *ᵥ vec (block ρ p.2 q.2)) (q.1, p.1)

/-- Specification: completely positive, i.e. positive also on systems of which only a part evolves. -/
def CompletelyPositive (P : Sup n) : Prop :=
  ∀ (k : Type) [Fintype k] (ρ : Matrix (n × k) (n × k) ℂ), ρ.PosSemidef → (actOn P ρ).PosSemidef

omit [DecidableEq n] [Fintype k] in
theorem vec_block_actOn (P : Sup n) (ρ : Matrix (n × k) (n × k) ℂ) (a b : k) :
    vec (block (actOn P ρ) a b) = P *ᵥ vec (block ρ a b) := rfl

omit [DecidableEq n] [Fintype k] in
theorem actOn_mul (P Q : Sup n) (ρ : Matrix (n × k) (n × k) ℂ) : actOn (P * Q) ρ = actOn P (actOn Q ρ) := by
  ext p q
  show ((P * Q) *ᵥ vec (block ρ p.2 q.2)) (q.1, p.1) = (P *ᵥ vec (block (actOn Q ρ) p.2 q.2)) (q.1, p.1)
  rw [vec_block_actOn, Matrix.mulVec_mulVec]

omit [DecidableEq n] [Fintype k] in
theorem actOn_add (P Q : Sup n) (ρ : Matrix (n × k) (n × k) ℂ) : actOn (P + Q) ρ = actOn P ρ + actOn Q ρ := by
  ext p q
  simp [actOn, Matrix.add_mulVec]

omit [DecidableEq n] [Fintype k] in
theorem actOn_smul (c : ℂ) (P : Sup n) (ρ : Matrix (n × k) (n × k) ℂ) : actOn (c • P) ρ = c • actOn P ρ := by
  ext p q
  simp [actOn, Matrix.smul_mulVec]

theorem CompletelyPositive.one : CompletelyPositive (1 : Sup n) := by
  intro k _ ρ hρ
  have : actOn 1 ρ = ρ := by
    ext p q
    simp only [actOn, Matrix.of_apply, Matrix.one_mulVec]
    rfl
  rwa [this]

omit [DecidableEq n] in
theorem CompletelyPositive.mul {P Q : Sup n} (hP : CompletelyPositive P) (hQ : CompletelyPositive Q) :
    CompletelyPositive (P * Q) := by
  intro k _ ρ hρ
  rw [actOn_mul]
  exact hP k _ (hQ k ρ hρ)

theorem CompletelyPositive.pow {P : Sup n} (hP : CompletelyPositive P) (k : Nat) : CompletelyPositive (P ^ k) := by
  induction k with
  | zero => rw [pow_zero]; exact .one
  | succ k ih => rw [pow_succ]; exact ih.mul hP

omit [DecidableEq n] in
theorem CompletelyPositive.zero : CompletelyPositive (0 : Sup n) := by
  intro k _ ρ _
  have : actOn (0 : Sup n) ρ = 0 := by ext p q; simp [actOn]
  rw [this]
  exact .zero

omit [DecidableEq n] in
theorem CompletelyPositive.add {P Q : Sup n} (hP : CompletelyPositive P) (hQ : CompletelyPositive Q) :
    CompletelyPositive (P + Q) := by
  intro k _ ρ hρ
  rw [actOn_add]
  exact (hP k ρ hρ).add (hQ k ρ hρ)

omit [DecidableEq n] in
theorem CompletelyPositive.smul {P : Sup n} (hP : CompletelyPositive P) {c : ℝ} (hc : 0 ≤ c) :
    CompletelyPositive ((c : ℂ) • P) := by
  intro k _ ρ hρ
  rw [actOn_smul]
  exact (hP k ρ hρ).smul (by exact_mod_cast hc)

/-- Conjugation with a matrix. -/
theorem CompletelyPositive.unitarySup (A : Matrix n n ℂ) : CompletelyPositive (unitarySup A) := by
  classical
  intro k _ ρ hρ
  have : actOn (Solver.unitarySup A) ρ = (A ⊗ₖ (1 : Matrix k k ℂ)) * ρ * (A ⊗ₖ (1 : Matrix k k ℂ))ᴴ := by
    ext p q
    show (Solver.unitarySup A *ᵥ vec (block ρ p.2 q.2)) (q.1, p.1) = _
    unfold Solver.unitarySup
    rw [kronecker_mulVec_vec, conjM_eq, Matrix.transpose_transpose]
    simp only [vec, Matrix.mul_apply, Fintype.sum_prod_type, Matrix.kroneckerMap_apply, Matrix.conjTranspose_apply,
      Matrix.one_apply, block, Matrix.of_apply]
    simp only [Finset.sum_mul, apply_ite star, star_zero, mul_ite, ite_mul, mul_one, mul_zero, zero_mul, Finset.sum_ite_eq, Finset.mem_univ,
      if_true]
  rw [this]
  exact hρ.mul_mul_conjTranspose_same _

/-- Limits of completely positive super operators. -/
theorem CompletelyPositive.limit {P : Nat → Sup n} {Q : Sup n} (h : ∀ k, CompletelyPositive (P k))
    (hl : Tendsto P atTop (𝓝 Q)) : CompletelyPositive Q := by
  intro k _ ρ hρ
  have hc : Continuous fun R : Sup n => actOn R ρ := by
    refine continuous_matrix fun p q => ?_
    show Continuous fun R : Sup n => (R *ᵥ vec (block ρ p.2 q.2)) (q.1, p.1)
    exact (continuous_apply (q.1, p.1)).comp (continuous_id.matrix_mulVec continuous_const)
  have ht := (hc.tendsto Q).comp hl
  refine .of_dotProduct_mulVec_nonneg ?_ fun v => ?_
  · have h2 := (continuous_id.matrix_conjTranspose.tendsto (actOn Q ρ)).comp ht
    refine tendsto_nhds_unique (h2.congr fun m => ?_) ht
    exact (h m k ρ hρ).isHermitian
  · have hq : Continuous fun M : Matrix (n × k) (n × k) ℂ => star v ⬝ᵥ (M *ᵥ v) :=
      continuous_const.dotProduct (continuous_id.matrix_mulVec continuous_const)
    exact ge_of_tendsto' ((hq.tendsto _).comp ht) fun m => (h m k ρ hρ).dotProduct_mulVec_nonneg v

/-! ## The generator -/

/-- `K = -i H - 1/2 ∑ w L† L`. -/
noncomputable def driftPart (H : Matrix n n ℂ) (ws : List (ℝ × Matrix n n ℂ)) : Matrix n n ℂ :=
  (-Complex.I) • H - (1 / 2 : ℂ) • (ws.map fun p => (p.1 : ℂ) • (p.2ᴴ * p.2)).sum

/-- `∑ w L* ⊗ L`. -/
noncomputable def jumpPart (ws : List (ℝ × Matrix n n ℂ)) : Sup n := (ws.map fun p => (p.1 : ℂ) • unitarySup p.2).sum

theorem jumpPart_cp (ws : List (ℝ × Matrix n n ℂ)) (h : ∀ p ∈ ws, 0 ≤ p.1) : CompletelyPositive (jumpPart ws) := by
  unfold jumpPart
  induction ws with
  | nil => exact .zero
  | cons p ws ih =>
    rw [List.map_cons, List.sum_cons]
    exact ((CompletelyPositive.unitarySup p.2).smul (h p (by simp))).add (ih fun q hq => h q (by simp [hq]))

theorem unitarySup_mulVec (A ρ : Matrix n n ℂ) : unitarySup A *ᵥ vec ρ = vec (A * ρ * Aᴴ) := by
  unfold unitarySup
  rw [kronecker_mulVec_vec, conjM_eq, Matrix.transpose_transpose]

theorem jumpPart_mulVec (ws : List (ℝ × Matrix n n ℂ)) (ρ : Matrix n n ℂ) :
    jumpPart ws *ᵥ vec ρ = vec ((ws.map fun p => (p.1 : ℂ) • (p.2 * ρ * p.2ᴴ)).sum) := by
  unfold jumpPart
  induction ws with
  | nil => simp
  | cons p ws ih => simp only [List.map_cons, List.sum_cons, Matrix.add_mulVec, ih, Matrix.smul_mulVec, unitarySup_mulVec,
      vec_add, vec_smul]

theorem master_eq {H : Matrix n n ℂ} (hH : H.IsHermitian) (ws : List (ℝ × Matrix n n ℂ)) (ρ : Matrix n n ℂ) :
    master H ws ρ = driftPart H ws * ρ + ρ * (driftPart H ws)ᴴ + (ws.map fun p => (p.1 : ℂ) • (p.2 * ρ * p.2ᴴ)).sum := by
  have hs : ((ws.map fun p => (p.1 : ℂ) • (p.2ᴴ * p.2)).sum)ᴴ = (ws.map fun p => (p.1 : ℂ) • (p.2ᴴ * p.2)).sum := by
    rw [Matrix.conjTranspose_list_sum, List.map_map]
    congr 1
    refine List.map_congr_left fun p _ => ?_
    simp [Matrix.conjTranspose_smul, Matrix.conjTranspose_mul]
  have hd : (ws.map fun p => (p.1 : ℂ) • (p.2 * ρ * p.2ᴴ - (1 / 2 : ℂ) • (p.2ᴴ * p.2 * ρ + ρ * (p.2ᴴ * p.2)))).sum =
      (ws.map fun p => (p.1 : ℂ) • (p.2 * ρ * p.2ᴴ)).sum - (1 / 2 : ℂ) •
        ((ws.map fun p => (p.1 : ℂ) • (p.2ᴴ * p.2)).sum * ρ + ρ * (ws.map fun p => (p.1 : ℂ) • (p.2ᴴ * p.2)).sum) := by
    clear hs
    induction ws with
    | nil => simp
    | cons p ws ih =>
      simp only [List.map_cons, List.sum_cons, ih, Matrix.add_mul, Matrix.mul_add, Matrix.smul_mul, Matrix.mul_smul]
      module
  unfold master driftPart
  rw [hd, Matrix.conjTranspose_sub, Matrix.conjTranspose_smul, Matrix.conjTranspose_smul, hs, hH.eq]
  generalize (ws.map fun p => (p.1 : ℂ) • (p.2ᴴ * p.2)).sum = S
  simp only [Matrix.sub_mul, Matrix.mul_sub, Matrix.smul_mul, Matrix.mul_smul]
  have e1 : star (-Complex.I) = Complex.I := by simp
  have e2 : star (1 / 2 : ℂ) = 1 / 2 := by simp
  rw [e1, e2]
  module

/-- One small step: `(1 + ε K) ⊗ conj` plus `ε` times the jumps is `1 + ε G + ε² K* ⊗ K`. -/
theorem small_step {G : Sup n} {H : Matrix n n ℂ} (hH : H.IsHermitian) (ws : List (ℝ × Matrix n n ℂ))
    (hG : ∀ ρ, G *ᵥ vec ρ = vec (master H ws ρ)) (ε : ℝ) :
    1 + (ε : ℂ) • G + ((ε : ℂ) ^ 2) • unitarySup (driftPart H ws) =
      unitarySup (1 + (ε : ℂ) • driftPart H ws) + (ε : ℂ) • jumpPart ws := by
  refine matrix_ext_mulVec fun ρ => ?_
  simp only [Matrix.add_mulVec, Matrix.smul_mulVec, Matrix.one_mulVec, hG, unitarySup_mulVec, jumpPart_mulVec, ← vec_smul,
    ← vec_add, master_eq hH]
  congr 1
  simp only [Matrix.conjTranspose_add, Matrix.conjTranspose_smul, Matrix.conjTranspose_one, Matrix.add_mul, Matrix.mul_add,
    Matrix.one_mul, Matrix.mul_one, Matrix.smul_mul, Matrix.mul_smul]
  have e : star (ε : ℂ) = ε := Complex.conj_ofReal ε
  rw [e]
  module

/-- The exponential of a super operator of Lindblad form with non-negative rates is completely positive. -/
theorem cp_exp {G : Sup n} {H : Matrix n n ℂ} (hH : H.IsHermitian) (ws : List (ℝ × Matrix n n ℂ))
    (hw : ∀ p ∈ ws, 0 ≤ p.1) (hG : ∀ ρ, G *ᵥ vec ρ = vec (master H ws ρ)) (σ : ℝ) (hσ : 0 ≤ σ) :
    CompletelyPositive (NormedSpace.exp ((σ : ℂ) • G)) := by
  cases isEmpty_or_nonempty n with
  | inl h => intro k _ ρ _; rw [Subsingleton.elim (actOn _ ρ) 0]; exact .zero
  | inr h =>
    refine CompletelyPositive.limit (fun k => ?_)
      (tendsto_matrix_exp ((σ : ℂ) • G) (((σ : ℂ) ^ 2) • unitarySup (driftPart H ws)))
    have e : (1 : Sup n) + (((k + 1 : ℝ)⁻¹ : ℝ) : ℂ) • ((σ : ℂ) • G) + ((((k + 1 : ℝ)⁻¹ : ℝ) : ℂ) ^ 2) •
        (((σ : ℂ) ^ 2) • unitarySup (driftPart H ws)) =
        1 + (((k + 1 : ℝ)⁻¹ * σ : ℝ) : ℂ) • G + ((((k + 1 : ℝ)⁻¹ * σ : ℝ) : ℂ) ^ 2) • unitarySup (driftPart H ws) := by
      rw [smul_smul, smul_smul, ← mul_pow, Complex.ofReal_mul]
    rw [e, small_step hH ws hG]
    exact ((CompletelyPositive.unitarySup _).add ((jumpPart_cp ws hw).smul (by positivity))).pow _

/-! ## C96 -/

omit [DecidableEq n] in
theorem isForward_closed {good : Sup n → Prop} (hmul : ∀ P Q, good P → good Q → good (P * Q)) {init : Sup n}
    {ps f : List (Sup n)} (h : IsForward init ps f) (hi : good init) (hp : ∀ P ∈ ps, good P) : ∀ F ∈ f, good F := by
  obtain ⟨h1, h2, h3⟩ := h
  have key : ∀ i, i ≤ ps.length → ∃ F, f[i]? = some F ∧ good F := by
    intro i
    induction i with
    | zero => exact fun _ => ⟨init, h2, hi⟩
    | succ i ih =>
      intro hi'
      obtain ⟨F, e1, e2⟩ := ih (by omega)
      obtain ⟨F', e3, e4⟩ := h3 i (by omega)
      rw [e1] at e3
      cases e3
      exact ⟨_, e4, hmul _ _ (hp _ (List.getElem_mem _)) e2⟩
  intro F hF
  obtain ⟨i, hi', rfl⟩ := List.getElem_of_mem hF
  obtain ⟨F', e1, e2⟩ := key i (by omega)
  rw [List.getElem?_eq_getElem hi'] at e1
  cases e1
  exact e2

/-- **C96** With Hermitian Hamiltonians, Lindblad operators with non-negative prefactors and non-negative time steps,
every propagator and every forward propagator is completely positive. -/
theorem c96_completely_positive (p : LPar n) (Ls : List (Matrix n n ℂ)) (times : List ℝ) (u x : Pulse)
    (hL : p.Lindblads Ls times u x) (hne : times ≠ []) (hd : p.drift.length = times.length)
    (hu : u.length = times.length) (hrow : ∀ row ∈ u, row.length = p.ctrl.length)
    (hdH : ∀ H ∈ p.drift, H.IsHermitian) (hcH : ∀ H ∈ p.ctrl, H.IsHermitian)
    (hm : p.method = .frechet) (hE : p.L.ExpmOk) (hi : p.init = 1) (hτ : ∀ τ ∈ times, 0 ≤ τ)
    (hw : ∀ f, p.diss.prefactor = some f → ∀ row ∈ f u x, ∀ w ∈ row, 0 ≤ w) :
    ∃ ps f : List (Sup n), p.props times u x = .ok (ps.map some) ∧ p.fwd times u x = .ok f ∧
      ps.length = times.length ∧ f.length = times.length + 1 ∧ (∀ P ∈ ps, CompletelyPositive P) ∧
      ∀ F ∈ f, CompletelyPositive F := by
  obtain ⟨g, hg, hl, hG⟩ := c38_generator p Ls times u x hL hne hd hrow hdH hcH
  obtain ⟨ps, f, h1, h2, h3, h4⟩ := p.run_ok (by rw [hm]; simp) times u x g hg hl
  have hP : ∀ P ∈ ps, CompletelyPositive P := by
    intro P hP
    rw [h3] at hP
    obtain ⟨t, ht, rfl⟩ := List.mem_map.mp hP
    have ht' := List.mem_range.mp ht
    have h5 : t < p.drift.length := by omega
    have h6 : t < u.length := by omega
    obtain ⟨G, e1, e2⟩ := hG t _ _ (List.getElem?_eq_getElem h5) (List.getElem?_eq_getElem h6)
    rw [propOf_base p hm hE, List.getD_eq_getElem?_getD (l := g), e1]
    refine cp_exp (hamiltonian_isHermitian _ (hdH _ (List.getElem_mem _)) hcH) _ ?_ e2 _ ?_
    · intro q hq
      have hq1 : q.1 ∈ weightsAt p Ls u x t := (List.of_mem_zip hq).1
      unfold weightsAt at hq1
      split at hq1
      · rw [List.eq_of_mem_replicate hq1]
        exact zero_le_one
      · next f hf =>
        rw [List.getD_eq_getElem?_getD] at hq1
        cases hr : (f u x)[t]? with
        | none => rw [hr] at hq1; simp at hq1
        | some row =>
          rw [hr] at hq1
          exact hw f hf row (List.mem_of_getElem? hr) _ hq1
    · rw [List.getD_eq_getElem _ _ ht']
      exact hτ _ (List.getElem_mem _)
  have hlp : ps.length = times.length := by rw [h3]; simp
  have hi' : CompletelyPositive p.init := by rw [hi]; exact .one
  exact ⟨ps, f, h1, h2, hlp, by rw [h4.1, hlp], hP,
    isForward_closed (good := CompletelyPositive) (fun _ _ h h' => h.mul h') h4 hi' hP⟩

omit [DecidableEq n] in
/-- Without a second system complete positivity is positivity. -/
theorem CompletelyPositive.positive {P : Sup n} (h : CompletelyPositive P) (ρ : Matrix n n ℂ) (hρ : ρ.PosSemidef) :
    ∃ ρ' : Matrix n n ℂ, P *ᵥ vec ρ = vec ρ' ∧ ρ'.PosSemidef := by
  have := h Unit (ρ.submatrix Prod.fst Prod.fst) (hρ.submatrix _)
  refine ⟨_, ?_, this.submatrix fun i => (i, ())⟩
  rfl

/-- **C96** Under the same conditions density matrices evolve to density matrices. -/
theorem c96_density (p : LPar n) (Ls : List (Matrix n n ℂ)) (times : List ℝ) (u x : Pulse)
    (hL : p.Lindblads Ls times u x) (hne : times ≠ []) (hd : p.drift.length = times.length)
    (hu : u.length = times.length) (hrow : ∀ row ∈ u, row.length = p.ctrl.length)
    (hdH : ∀ H ∈ p.drift, H.IsHermitian) (hcH : ∀ H ∈ p.ctrl, H.IsHermitian)
    (hm : p.method = .frechet) (hE : p.L.ExpmOk) (hi : p.init = 1) (hτ : ∀ τ ∈ times, 0 ≤ τ)
    (hw : ∀ f, p.diss.prefactor = some f → ∀ row ∈ f u x, ∀ w ∈ row, 0 ≤ w) :
    ∃ f : List (Sup n), p.fwd times u x = .ok f ∧ f.length = times.length + 1 ∧
      ∀ F ∈ f, ∀ ρ : Matrix n n ℂ, ρ.PosSemidef → ρ.trace = 1 →
        ∃ ρ' : Matrix n n ℂ, F *ᵥ vec ρ = vec ρ' ∧ ρ'.PosSemidef ∧ ρ'.trace = 1 := by
  obtain ⟨-, f, -, h2, -, h4, -, h6⟩ := c96_completely_positive p Ls times u x hL hne hd hu hrow hdH hcH hm hE hi hτ hw
  obtain ⟨-, f', -, e2, -, -, -, e6⟩ := c39_trace_hermitian p Ls times u x hL hne hd hu hrow hdH hcH hm hE hi
  rw [h2] at e2
  cases e2
  refine ⟨f, h2, h4, fun F hF ρ hρ htr => ?_⟩
  obtain ⟨ρ', a1, a2⟩ := (h6 F hF).positive ρ hρ
  obtain ⟨ρ'', b1, b2, -⟩ := e6 F hF ρ
  rw [a1] at b1
  rw [vec_inj.mp b1] at a1 a2
  exact ⟨ρ'', a1, a2, b2.trans htr⟩

/-- Kraus form: completely positive super operators are sums of conjugations. -/
theorem CompletelyPositive.kraus {P : Sup n} (h : CompletelyPositive P) :
    ∃ (m : Nat) (K : Fin m → Matrix n n ℂ), P = ∑ r, Solver.unitarySup (K r) := by
  have hΩ : (Matrix.vecMulVec (fun p : n × n => if p.1 = p.2 then (1 : ℂ) else 0)
      (star fun p : n × n => if p.1 = p.2 then (1 : ℂ) else 0)).PosSemidef := Matrix.posSemidef_vecMulVec_self_star _
  obtain ⟨m, v, hv⟩ := Matrix.posSemidef_iff_eq_sum_vecMulVec.mp (h n _ hΩ)
  refine ⟨m, fun r => Matrix.of fun i a => v r (i, a), ?_⟩
  ext ⟨j, i⟩ ⟨b, a⟩
  have e1 : actOn P (Matrix.vecMulVec (fun p : n × n => if p.1 = p.2 then (1 : ℂ) else 0)
      (star fun p : n × n => if p.1 = p.2 then (1 : ℂ) else 0)) (i, a) (j, b) = P (j, i) (b, a) := by
    show (P *ᵥ _) (j, i) = _
    rw [Matrix.mulVec, dotProduct, Finset.sum_eq_single (b, a)]
    · simp [vec, block, Matrix.vecMulVec_apply]
    · rintro ⟨b', a'⟩ - hne
      have : ¬ (a' = a ∧ b' = b) := fun h => hne (by rw [h.1, h.2])
      simp only [vec, block, Matrix.vecMulVec_apply, Matrix.of_apply, Pi.star_apply]
      by_cases ha : a' = a
      · have hb : b' ≠ b := fun hb => this ⟨ha, hb⟩
        simp [hb]
      · simp [ha]
    · simp
  rw [← e1, hv, Matrix.sum_apply, Matrix.sum_apply]
  refine Finset.sum_congr rfl fun r _ => ?_
  simp [Solver.unitarySup, conjM, Matrix.vecMulVec_apply, mul_comm]

/-- Preservation of the trace in terms of Kraus operators. -/
theorem kraus_complete {m : Nat} (K : Fin m → Matrix n n ℂ) (h : Physical (∑ r, unitarySup (K r))) :
    ∑ r, (K r)ᴴ * K r = 1 := by
  have key : ∀ ρ : Matrix n n ℂ, ((∑ r, (K r)ᴴ * K r) * ρ).trace = ρ.trace := by
    intro ρ
    obtain ⟨ρ', h1, h2, -⟩ := h ρ
    have e : (∑ r, unitarySup (K r)) *ᵥ vec ρ = vec (∑ r, K r * ρ * (K r)ᴴ) := by
      rw [Matrix.sum_mulVec]
      simp only [unitarySup_mulVec]
      ext q
      simp [vec, Matrix.sum_apply]
    rw [e] at h1
    rw [← h2, ← vec_inj.mp h1, Matrix.sum_mul, Matrix.trace_sum, Matrix.trace_sum]
    exact Finset.sum_congr rfl fun r _ => by rw [Matrix.trace_mul_cycle (K r) ρ]
  exact Matrix.ext_iff_trace_mul_right.2 fun ρ => by rw [key, Matrix.one_mul]

/-- **C96** Under the same conditions every forward propagator has a Kraus form: it maps `ρ` to `∑ K ρ K†` with
`∑ K† K = 1`. -/
theorem c96_kraus (p : LPar n) (Ls : List (Matrix n n ℂ)) (times : List ℝ) (u x : Pulse)
    (hL : p.Lindblads Ls times u x) (hne : times ≠ []) (hd : p.drift.length = times.length)
    (hu : u.length = times.length) (hrow : ∀ row ∈ u, row.length = p.ctrl.length)
    (hdH : ∀ H ∈ p.drift, H.IsHermitian) (hcH : ∀ H ∈ p.ctrl, H.IsHermitian)
    (hm : p.method = .frechet) (hE : p.L.ExpmOk) (hi : p.init = 1) (hτ : ∀ τ ∈ times, 0 ≤ τ)
    (hw : ∀ f, p.diss.prefactor = some f → ∀ row ∈ f u x, ∀ w ∈ row, 0 ≤ w) :
    ∃ f : List (Sup n), p.fwd times u x = .ok f ∧ f.length = times.length + 1 ∧
      ∀ F ∈ f, ∃ (m : Nat) (K : Fin m → Matrix n n ℂ), ∑ r, (K r)ᴴ * K r = 1 ∧
        ∀ ρ : Matrix n n ℂ, F *ᵥ vec ρ = vec (∑ r, K r * ρ * (K r)ᴴ) := by
  obtain ⟨-, f, -, h2, -, h4, -, h6⟩ := c96_completely_positive p Ls times u x hL hne hd hu hrow hdH hcH hm hE hi hτ hw
  obtain ⟨-, f', -, e2, -, -, -, e6⟩ := c39_trace_hermitian p Ls times u x hL hne hd hu hrow hdH hcH hm hE hi
  rw [h2] at e2
  cases e2
  refine ⟨f, h2, h4, fun F hF => ?_⟩
  obtain ⟨m, K, rfl⟩ := (h6 F hF).kraus
  refine ⟨m, K, kraus_complete K (e6 _ hF), fun ρ => ?_⟩
  rw [Matrix.sum_mulVec]
  simp only [unitarySup_mulVec]
  ext q
  simp [vec, Matrix.sum_apply]

/-! ## Concrete cases -/

/-- `c96_completely_positive` and `c96_density` apply: the decaying qubit with a pulse dependent rate. -/
example : ∃ (L : Lapack (Fin 2 × Fin 2)) (ps f : List (Sup (Fin 2))),
    (decayPar L (some decayPre) none).props [1, 2, 3] [[1, 2], [3, 4], [5, 6]] [] = .ok (ps.map some) ∧
    (decayPar L (some decayPre) none).fwd [1, 2, 3] [[1, 2], [3, 4], [5, 6]] [] = .ok f ∧ ps.length = 3 ∧
    (∀ P ∈ ps, CompletelyPositive P) ∧ ∀ F ∈ f, CompletelyPositive F := by
  obtain ⟨L, -, -, hE, -⟩ := lapack_exists (Fin 2 × Fin 2)
  obtain ⟨ps, f, h1, h2, h3, -, h5, h6⟩ := c96_completely_positive (decayPar L (some decayPre) none)
    [!![0, 1; 0, 0], !![1, 0; 0, -1]] [1, 2, 3] [[1, 2], [3, 4], [5, 6]] []
    ⟨rfl, rfl, by simp, fun f hf => by
      cases hf
      exact ⟨rfl, fun row hrow => by simp only [decayPre, List.mem_map] at hrow; obtain ⟨t, -, rfl⟩ := hrow; rfl⟩⟩
    (by simp) rfl rfl (by simp [decayPar]) decay_drift decay_ctrl rfl hE rfl (by simp) (by
      intro f hf
      cases hf
      intro row hrow w hw
      simp only [decayPre, List.mem_map, List.mem_range] at hrow
      obtain ⟨t, ht, rfl⟩ := hrow
      interval_cases t <;> simp at hw <;> rcases hw with rfl | rfl <;> norm_num)
  exact ⟨L, ps, f, h1, h2, h3, h5, h6⟩

/-- Dephasing of a qubit over one step of length 1 with rate `w` given by a prefactor function. -/
noncomputable def dephasePar (L : Lapack (Fin 2 × Fin 2)) (w : ℝ) : LPar (Fin 2) :=
  ⟨L, .frechet, false, 1, [0], [0], ⟨none, some [!![1, 0; 0, -1]], some fun _ _ => [[w]], none, none, none⟩⟩

/-- The condition on the prefactors is needed: with rate -1 the forward propagator does not map every density matrix to
a positive semidefinite matrix. -/
example : ∃ (L : Lapack (Fin 2 × Fin 2)) (f : List (Sup (Fin 2))), L.ExpmOk ∧
    (dephasePar L (-1)).fwd [1] [[0]] [] = .ok f ∧ ∃ F ∈ f, ¬ CompletelyPositive F := by
  obtain ⟨L, -, -, hE, -⟩ := lapack_exists (Fin 2 × Fin 2)
  obtain ⟨g, hg, hl, hG⟩ := c38_generator (dephasePar L (-1)) [!![1, 0; 0, -1]] [1] [[0]] []
    ⟨rfl, rfl, by simp, fun f hf => by cases hf; exact ⟨rfl, fun row hrow => by rw [List.mem_singleton.mp hrow]; rfl⟩⟩
    (by simp) rfl (by simp [dephasePar]) (by simp [dephasePar]) (by simp [dephasePar])
  obtain ⟨G, e1, e2⟩ := hG 0 0 [0] rfl rfl
  have hGd : G = Matrix.diagonal fun q : Fin 2 × Fin 2 => if q.1 = q.2 then (0 : ℂ) else 2 := by
    refine matrix_ext_mulVec fun ρ => ?_
    rw [e2]
    have hs : (!![1, 0; 0, -1] : Matrix (Fin 2) (Fin 2) ℂ)ᴴ = !![1, 0; 0, -1] := by
      ext i j; fin_cases i <;> fin_cases j <;> simp
    rw [Matrix.eta_fin_two ρ]
    ext ⟨j, i⟩
    rw [Matrix.mulVec_diagonal]
    fin_cases i <;> fin_cases j <;>
      simp [master, vec, hamiltonian, dephasePar, weightsAt, hs] <;> ring
  obtain ⟨ps, f, h1, h2, h3, h4⟩ := (dephasePar L (-1)).run_ok (by simp [dephasePar]) [1] [[0]] [] _ hg hl
  have hF : f[1]? = some (NormedSpace.exp (((1 : ℝ) : ℂ) • G)) := by
    obtain ⟨b1, b2, b3⟩ := h4
    obtain ⟨F', a1, a2⟩ := b3 0 (by rw [h3]; simp)
    rw [b2] at a1
    cases a1
    rw [← propOf_base (dephasePar L (-1)) rfl hE, a2, show (dephasePar L (-1)).init = 1 from rfl, Matrix.mul_one]
    simp [h3, List.getD_eq_getElem?_getD, e1]
  refine ⟨L, f, hE, h2, _, List.mem_of_getElem? hF, fun hcp => ?_⟩
  have hρ : (Matrix.vecMulVec (fun _ : Fin 2 => (1 : ℂ)) (star fun _ : Fin 2 => (1 : ℂ))).PosSemidef :=
    Matrix.posSemidef_vecMulVec_self_star _
  obtain ⟨ρ', a1, a2⟩ := hcp.positive _ hρ
  have h0 := a2.dotProduct_mulVec_nonneg ![1, -1]
  have hv : ∀ i j, ρ' i j = if i = j then 1 else ((Real.exp 2 : ℝ) : ℂ) := by
    intro i j
    have := congrFun a1 (j, i)
    rw [hGd, Complex.ofReal_one, one_smul, Matrix.exp_diagonal, Matrix.mulVec_diagonal] at this
    rw [show ρ' i j = vec ρ' (j, i) from rfl, ← this]
    by_cases hij : i = j
    · subst hij
      simp [vec, Matrix.vecMulVec_apply, Pi.coe_exp]
    · simp [vec, Matrix.vecMulVec_apply, Pi.coe_exp, ← Complex.exp_eq_exp_ℂ, hij, Ne.symm hij]
  have he : (1 : ℝ) < Real.exp 2 := Real.one_lt_exp_iff.2 (by norm_num)
  simp [dotProduct, Matrix.mulVec, Fin.sum_univ_two, hv] at h0
  have := (Complex.le_def.1 h0).1
  simp at this
  rw [show (2 : ℂ) = ((2 : ℝ) : ℂ) by simp, Complex.exp_ofReal_re] at this
  linarith

end
end Verif.Solver
