import Mathlib.Analysis.CStarAlgebra.Matrix
import Mathlib.Analysis.Matrix.Spectrum
import Verif.Operator.ExpThms

/-!
# `closest_unitary` (matrix.py:1435-1453) and property theorems C24
-/

namespace Verif.Operator
open Verif Matrix
open scoped ComplexConjugate

variable {n : Type} [Fintype n] [DecidableEq n]

/-- What `scipy.linalg.svd` returns for a square matrix: `(U, s, Wh)`. -/
structure Svd (n : Type) where
  left : Matrix n n ℂ
  sing : n → ℝ
  rightH : Matrix n n ℂ

/-- `closest_unitary`, matrix.py:1435-1453: the product of the left and right singular vectors.  `util.closest_unitary`,
util.py:115-128, is the same on arrays. -/
def closestUnitary (svd : Matrix n n ℂ → Svd n) (A : Matrix n n ℂ) : Matrix n n ℂ :=
  let d := svd A
  d.left * d.rightH

/-- What `scipy.linalg.svd` promises for a matrix. -/
structure SvdOk (A : Matrix n n ℂ) (d : Svd n) : Prop where
  left : d.left ∈ Matrix.unitaryGroup n ℂ
  right : d.rightH ∈ Matrix.unitaryGroup n ℂ
  nonneg : ∀ i, 0 ≤ d.sing i
  eq : A = d.left * Matrix.diagonal (fun i => (d.sing i : ℂ)) * d.rightH

/-- Squared Frobenius distance. -/
noncomputable def frobSq (A B : Matrix n n ℂ) : ℝ := ∑ i, ∑ j, ‖A i j - B i j‖ ^ 2

theorem frobSq_eq (A B : Matrix n n ℂ) : frobSq A B = ((A - B)ᴴ * (A - B)).trace.re := by
  rw [Matrix.trace, Complex.re_sum, frobSq, Finset.sum_comm]
  refine Finset.sum_congr rfl fun j _ => ?_
  rw [Matrix.diag_apply, Matrix.mul_apply, Complex.re_sum]
  refine Finset.sum_congr rfl fun i _ => ?_
  rw [Matrix.conjTranspose_apply, Matrix.sub_apply, ← Complex.normSq_eq_norm_sq]
  have : star (A i j - B i j) * (A i j - B i j) = (Complex.normSq (A i j - B i j) : ℂ) := by
    rw [Complex.normSq_eq_conj_mul_self]; rfl
  rw [this, Complex.ofReal_re]

/-- For unitary `Q` the distance is determined by the overlap `Re tr(Q† A)`. -/
theorem frobSq_unitary (A : Matrix n n ℂ) {Q : Matrix n n ℂ} (hQ : Q ∈ Matrix.unitaryGroup n ℂ) :
    frobSq A Q = (Aᴴ * A).trace.re + Fintype.card n - 2 * (Qᴴ * A).trace.re := by
  rw [frobSq_eq, Matrix.conjTranspose_sub]
  have h1 : (Aᴴ - Qᴴ) * (A - Q) = Aᴴ * A - Aᴴ * Q - Qᴴ * A + Qᴴ * Q := by
    rw [Matrix.sub_mul, Matrix.mul_sub, Matrix.mul_sub]; abel
  have h2 : (Aᴴ * Q).trace.re = (Qᴴ * A).trace.re := by
    have : Aᴴ * Q = (Qᴴ * A)ᴴ := by rw [Matrix.conjTranspose_mul, Matrix.conjTranspose_conjTranspose]
    rw [this, Matrix.trace_conjTranspose]
    exact Complex.conj_re _
  rw [h1, conjTranspose_mul_unitary hQ, Matrix.trace_add, Matrix.trace_sub, Matrix.trace_sub, Matrix.trace_one]
  simp only [Complex.add_re, Complex.sub_re, Complex.natCast_re, h2]
  ring

theorem unitary_mul {A B : Matrix n n ℂ} (hA : A ∈ Matrix.unitaryGroup n ℂ) (hB : B ∈ Matrix.unitaryGroup n ℂ) :
    A * B ∈ Matrix.unitaryGroup n ℂ := Submonoid.mul_mem _ hA hB

theorem unitary_conjTranspose {A : Matrix n n ℂ} (hA : A ∈ Matrix.unitaryGroup n ℂ) :
    Aᴴ ∈ Matrix.unitaryGroup n ℂ := by
  rw [Matrix.mem_unitaryGroup_iff]
  exact (congrArg (Aᴴ * ·) (Matrix.conjTranspose_conjTranspose A)).trans (conjTranspose_mul_unitary hA)

/-- **C24** `closest_unitary` returns a unitary matrix. -/
theorem c24_unitary (svd : Matrix n n ℂ → Svd n) (A : Matrix n n ℂ) (h : SvdOk A (svd A)) :
    closestUnitary svd A ∈ Matrix.unitaryGroup n ℂ := unitary_mul h.left h.right

/-- **C24** No unitary matrix is closer to `A` in Frobenius distance. -/
theorem c24_closest (svd : Matrix n n ℂ → Svd n) (A : Matrix n n ℂ) (h : SvdOk A (svd A)) (Q : Matrix n n ℂ)
    (hQ : Q ∈ Matrix.unitaryGroup n ℂ) : frobSq A (closestUnitary svd A) ≤ frobSq A Q := by
  rw [frobSq_unitary A hQ, frobSq_unitary A (c24_unitary svd A h)]
  -- overlap of any unitary with `A`
  have key : ∀ R : Matrix n n ℂ, (Rᴴ * A).trace
      = ∑ i, ((svd A).rightH * Rᴴ * (svd A).left) i i * ((svd A).sing i : ℂ) := by
    intro R
    have : (Rᴴ * A).trace = ((svd A).rightH * Rᴴ * (svd A).left *
        Matrix.diagonal (fun i => ((svd A).sing i : ℂ))).trace := by
      conv_lhs => rw [h.eq]
      rw [← Matrix.mul_assoc, Matrix.trace_mul_comm]
      simp only [Matrix.mul_assoc]
    rw [this, Matrix.trace]
    refine Finset.sum_congr rfl fun i _ => ?_
    rw [Matrix.diag_apply, Matrix.mul_diagonal]
  have h1 : ((closestUnitary svd A)ᴴ * A).trace.re = ∑ i, (svd A).sing i := by
    rw [key, closestUnitary]
    have : (svd A).rightH * ((svd A).left * (svd A).rightH)ᴴ * (svd A).left = 1 := by
      rw [Matrix.conjTranspose_mul, ← Matrix.mul_assoc, unitary_mul_conjTranspose h.right, Matrix.one_mul,
        conjTranspose_mul_unitary h.left]
    rw [this, Complex.re_sum]
    simp
  have h2 : (Qᴴ * A).trace.re ≤ ∑ i, (svd A).sing i := by
    rw [key, Complex.re_sum]
    refine Finset.sum_le_sum fun i _ => ?_
    have hu : (svd A).rightH * Qᴴ * (svd A).left ∈ Matrix.unitaryGroup n ℂ :=
      unitary_mul (unitary_mul h.right (unitary_conjTranspose hQ)) h.left
    have hb : ‖((svd A).rightH * Qᴴ * (svd A).left) i i‖ ≤ 1 := entry_norm_bound_of_unitary hu i i
    rw [Complex.mul_re, Complex.ofReal_re, Complex.ofReal_im, mul_zero, sub_zero]
    calc _ ≤ 1 * (svd A).sing i :=
          mul_le_mul_of_nonneg_right ((Complex.re_le_norm _).trans hb) (h.nonneg i)
      _ = _ := one_mul _
  linarith

open scoped Matrix.Norms.L2Operator in
/-- **C24** No unitary matrix is closer to `A` in the operator norm (the claim of the docstring). -/
theorem c24_closest_operator_norm (svd : Matrix n n ℂ → Svd n) (A : Matrix n n ℂ) (h : SvdOk A (svd A)) (Q : Matrix n n ℂ)
    (hQ : Q ∈ Matrix.unitaryGroup n ℂ) : ‖A - closestUnitary svd A‖ ≤ ‖A - Q‖ := by
  have hA := h.eq
  have hl := h.left
  have hr := h.right
  rw [closestUnitary]
  generalize svd A = d at *
  have hll := conjTranspose_mul_unitary hl
  have hll' := unitary_mul_conjTranspose hl
  have hrr := unitary_mul_conjTranspose hr
  have hrr' := conjTranspose_mul_unitary hr
  set R := d.leftᴴ * Q * d.rightHᴴ with hR
  have hRu : R ∈ Matrix.unitaryGroup n ℂ := unitary_mul (unitary_mul (unitary_conjTranspose hl) hQ) (unitary_conjTranspose hr)
  have hQR : Q = d.left * R * d.rightH := by
    rw [hR]
    simp only [← Matrix.mul_assoc]
    rw [hll', Matrix.one_mul, Matrix.mul_assoc, hrr', Matrix.mul_one]
  have e1 : A - d.left * d.rightH = d.left * Matrix.diagonal (fun i => (d.sing i : ℂ) - 1) * d.rightH := by
    rw [hA, ← Matrix.diagonal_sub, show Matrix.diagonal (fun _ : n => (1 : ℂ)) = 1 from Matrix.diagonal_one, Matrix.mul_sub,
      Matrix.sub_mul, Matrix.mul_one]
  have e2 : A - Q = d.left * (Matrix.diagonal (fun i => (d.sing i : ℂ)) - R) * d.rightH := by
    rw [hA, hQR, Matrix.mul_sub, Matrix.sub_mul]
  rw [e1, e2, CStarRing.norm_mul_mem_unitary _ hr, CStarRing.norm_mul_mem_unitary _ hr, CStarRing.norm_mem_unitary_mul _ hl,
    CStarRing.norm_mem_unitary_mul _ hl, Matrix.l2_opNorm_diagonal, pi_norm_le_iff_of_nonneg (norm_nonneg _)]
  intro i
  -- the i-th columns of the two matrices have lengths σ_i and 1
  set M := Matrix.diagonal (fun i => (d.sing i : ℂ))
  have hb := Matrix.l2_opNorm_mulVec (M - R) (EuclideanSpace.single i (1 : ℂ))
  rw [EuclideanSpace.norm_single, norm_one, mul_one] at hb
  refine le_trans ?_ hb
  have col : ∀ N : Matrix n n ℂ, N *ᵥ (EuclideanSpace.single i (1 : ℂ)).ofLp = N.col i := by
    intro N
    ext k
    simp
  rw [col]
  have hsub : (WithLp.toLp 2 ((M - R).col i) : EuclideanSpace ℂ n) = WithLp.toLp 2 (M.col i) - WithLp.toLp 2 (R.col i) := rfl
  have hM : ‖(WithLp.toLp 2 (M.col i) : EuclideanSpace ℂ n)‖ = d.sing i := by
    have : (WithLp.toLp 2 (M.col i) : EuclideanSpace ℂ n) = EuclideanSpace.single i (d.sing i : ℂ) := by
      ext k
      by_cases hk : k = i
      · subst hk; simp [M]
      · simp [M, hk]
    rw [this, EuclideanSpace.norm_single, Complex.norm_real, Real.norm_of_nonneg (h.nonneg i)]
  have hRn : ‖(WithLp.toLp 2 (R.col i) : EuclideanSpace ℂ n)‖ = 1 := by
    have hu := congrFun (congrFun (conjTranspose_mul_unitary hRu) i) i
    rw [Matrix.mul_apply, Matrix.one_apply_eq] at hu
    have hsq : ∑ k, ‖R k i‖ ^ 2 = 1 := by
      have := congrArg Complex.re hu
      rw [Complex.re_sum, Complex.one_re] at this
      rw [← this]
      refine Finset.sum_congr rfl fun k _ => ?_
      rw [Matrix.conjTranspose_apply, ← Complex.normSq_eq_norm_sq]
      have : star (R k i) * R k i = (Complex.normSq (R k i) : ℂ) := by
        rw [Complex.normSq_eq_conj_mul_self]; rfl
      rw [this, Complex.ofReal_re]
    rw [EuclideanSpace.norm_eq]
    simp only [Matrix.col_apply]
    rw [hsq, Real.sqrt_one]
  change _ ≤ ‖(WithLp.toLp 2 ((M - R).col i) : EuclideanSpace ℂ n)‖
  rw [hsub]
  refine le_trans (le_of_eq ?_) (abs_norm_sub_norm_le _ _)
  rw [hM, hRn, ← Complex.ofReal_one, ← Complex.ofReal_sub, Complex.norm_real, Real.norm_eq_abs]

/-- **C24** A unitary matrix is returned unchanged. -/
theorem c24_fixes_unitary (svd : Matrix n n ℂ → Svd n) (A : Matrix n n ℂ) (h : SvdOk A (svd A))
    (hA : A ∈ Matrix.unitaryGroup n ℂ) : closestUnitary svd A = A := by
  have hS : Matrix.diagonal (fun i => ((svd A).sing i : ℂ)) = (svd A).leftᴴ * A * (svd A).rightHᴴ := by
    have hA' := h.eq
    have h1 := conjTranspose_mul_unitary h.left
    have h2 := unitary_mul_conjTranspose h.right
    generalize svd A = d at *
    rw [hA', Matrix.mul_assoc, Matrix.mul_assoc, h2, Matrix.mul_one, ← Matrix.mul_assoc, h1, Matrix.one_mul]
  have hu : Matrix.diagonal (fun i => ((svd A).sing i : ℂ)) ∈ Matrix.unitaryGroup n ℂ := by
    rw [hS]
    exact unitary_mul (unitary_mul (unitary_conjTranspose h.left) hA) (unitary_conjTranspose h.right)
  have h1 : ∀ i, (svd A).sing i = 1 := by
    intro i
    have := congrFun (congrFun (unitary_mul_conjTranspose hu) i) i
    rw [Matrix.diagonal_conjTranspose, Matrix.diagonal_mul_diagonal, Matrix.diagonal_apply_eq,
      Matrix.one_apply_eq] at this
    have hr : (svd A).sing i * (svd A).sing i = 1 := by
      have : ((svd A).sing i : ℂ) * conj ((svd A).sing i : ℂ) = 1 := this
      rw [Complex.conj_ofReal] at this
      exact_mod_cast this
    nlinarith [h.nonneg i]
  have hA' := h.eq
  rw [closestUnitary]
  generalize svd A = d at *
  rw [hA']
  simp only [h1, Complex.ofReal_one]
  rw [show Matrix.diagonal (fun _ : n => (1 : ℂ)) = 1 from Matrix.diagonal_one, Matrix.mul_one]

/-- Non-vacuity: a singular value decomposition of a matrix that is neither unitary nor diagonal. -/
example : SvdOk (!![0, 2; -1, 0] : Matrix (Fin 2) (Fin 2) ℂ) ⟨1, ![2, 1], !![0, 1; -1, 0]⟩ := by
  refine ⟨Submonoid.one_mem _, ?_, fun i => ?_, ?_⟩
  · rw [Matrix.mem_unitaryGroup_iff]
    ext i j; fin_cases i <;> fin_cases j <;>
      simp [Matrix.mul_apply, Fin.sum_univ_two, Matrix.star_eq_conjTranspose, Matrix.conjTranspose_apply]
  · fin_cases i <;> simp
  · ext i j; fin_cases i <;> fin_cases j <;> simp [Matrix.mul_apply, Fin.sum_univ_two]

end Verif.Operator
