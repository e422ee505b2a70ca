import Mathlib.Analysis.Matrix.Spectrum
import Mathlib.LinearAlgebra.Matrix.Notation
import Mathlib.Tactic.LinearCombination
import Mathlib.Tactic.FinCases
import Mathlib.Tactic.NormNum
import Mathlib.Tactic.Module
import Mathlib.Analysis.Complex.ExponentialBounds
import Verif.Operator.Exp

/-!
# Property theorems C19, C20, C22, C23: matrix exponential

The specification is Mathlib's `NormedSpace.exp` (the power series) and `HasDerivAt`.
-/

namespace Verif.Operator
open Verif Matrix
open scoped ComplexConjugate

variable {n : Type} [Fintype n] [DecidableEq n]

section Lemmas

theorem expEinsum_eq (lam : n → ℂ) (V : Matrix n n ℂ) (τ : ℂ) :
    expEinsum lam V τ = V * Matrix.diagonal (fun j => Complex.exp (τ * lam j)) * Vᴴ := by
  ext i k
  rw [Matrix.mul_apply]
  simp [expEinsum, Matrix.mul_diagonal, Matrix.conjTranspose_apply]

theorem unitary_mul_conjTranspose {V : Matrix n n ℂ} (h : V ∈ Matrix.unitaryGroup n ℂ) : V * Vᴴ = 1 :=
  Matrix.mem_unitaryGroup_iff.mp h

theorem conjTranspose_mul_unitary {V : Matrix n n ℂ} (h : V ∈ Matrix.unitaryGroup n ℂ) : Vᴴ * V = 1 :=
  Matrix.mem_unitaryGroup_iff'.mp h

/-- A matrix with unitary diagonalisation is `V Λ V†`. -/
theorem UnitaryDecomp.eq {A V : Matrix n n ℂ} {lam : n → ℂ} (h : UnitaryDecomp A lam V) :
    A = V * Matrix.diagonal lam * Vᴴ := by
  rw [← h.2, Matrix.mul_assoc, unitary_mul_conjTranspose h.1, Matrix.mul_one]

theorem UnitaryDecomp.exp_eq {A V : Matrix n n ℂ} {lam : n → ℂ} (h : UnitaryDecomp A lam V) (τ : ℂ) :
    V * Matrix.diagonal (fun j => Complex.exp (τ * lam j)) * Vᴴ = NormedSpace.exp (τ • A) := by
  have hinv : V⁻¹ = Vᴴ := Matrix.inv_eq_left_inv (conjTranspose_mul_unitary h.1)
  have hu : IsUnit V := IsUnit.of_mul_eq_one _ (unitary_mul_conjTranspose h.1)
  have hA : τ • A = V * Matrix.diagonal (fun j => τ * lam j) * V⁻¹ := by
    rw [hinv]
    conv_lhs => rw [h.eq]
    have : Matrix.diagonal (fun j => τ * lam j) = τ • Matrix.diagonal lam := by
      ext i j; by_cases hij : i = j <;> simp [Matrix.diagonal, hij]
    rw [this, Matrix.mul_smul, Matrix.smul_mul]
  rw [hA, Matrix.exp_conj _ _ hu, Matrix.exp_diagonal, hinv]
  congr 2
  ext i j
  by_cases hij : i = j
  · subst hij
    rw [Matrix.diagonal_apply_eq, Matrix.diagonal_apply_eq, Pi.coe_exp, Complex.exp_eq_exp_ℂ]
  · rw [Matrix.diagonal_apply_ne _ hij, Matrix.diagonal_apply_ne _ hij]

/-- For skew Hermitian input the computed pair is a unitary diagonalisation. -/
theorem decomp_skew {L : Lapack n} (hL : L.EighOk) {A : Matrix n n ℂ} (hA : Aᴴ = -A) :
    UnitaryDecomp A (decomp L A true).1 (decomp L A true).2 := by
  have hH : ((-Complex.I) • A).IsHermitian := by
    rw [Matrix.IsHermitian, Matrix.conjTranspose_smul, hA]
    simp
  obtain ⟨h1, h2⟩ := hL _ hH
  refine ⟨h1, ?_⟩
  have h3 : (decomp L A true).2 = (L.eigh ((-Complex.I) • A)).2 := rfl
  have : A * (decomp L A true).2 = Complex.I • ((-Complex.I) • A) * (decomp L A true).2 := by
    rw [smul_smul]; simp
  rw [this]
  have hd : Matrix.diagonal (decomp L A true).1
      = Complex.I • Matrix.diagonal (fun j => ((L.eigh ((-Complex.I) • A)).1 j : ℂ)) := by
    ext i j; by_cases hij : i = j <;> simp [decomp, Matrix.diagonal, hij]
  rw [hd, Matrix.mul_smul, Matrix.smul_mul, h3, h2]

end Lemmas

/-- The assumption on `eigh` can be met (spectral theorem). -/
theorem eighOk_exists (n : Type) [Fintype n] [DecidableEq n] : ∃ L : Lapack n, L.EighOk := by
  classical
  refine ⟨⟨fun H => if h : H.IsHermitian then (h.eigenvalues, h.eigenvectorUnitary) else (0, 0),
    fun _ => (0, 0), id, fun _ => id⟩, fun H h => ?_⟩
  simp only [dif_pos h]
  refine ⟨h.eigenvectorUnitary.2, ?_⟩
  ext i j
  have hj := congrFun (h.mulVec_eigenvectorBasis j) i
  simp only [Matrix.mulVec, dotProduct, Pi.smul_apply, Complex.real_smul] at hj
  rw [Matrix.mul_apply, Matrix.mul_diagonal]
  simp only [Matrix.IsHermitian.eigenvectorUnitary_apply]
  rw [hj, mul_comm]

/-! ### C19 -/

/-- **C19** With `is_skew_hermitian=True` the spectral method returns the matrix exponential of `τA`. -/
theorem c19_exponential (L : Lapack n) (hL : L.EighOk) (A : Matrix n n ℂ) (hA : Aᴴ = -A) (τ : ℂ) :
    exp L A τ .spectral true = .ok (NormedSpace.exp (τ • A)) := by
  simp only [exp, expDiagonalize]
  rw [expEinsum_eq, (decomp_skew hL hA).exp_eq]

theorem exp_skew_unitary {A : Matrix n n ℂ} (hA : Aᴴ = -A) : NormedSpace.exp A ∈ Matrix.unitaryGroup n ℂ := by
  rw [Matrix.mem_unitaryGroup_iff, Matrix.star_eq_conjTranspose, ← Matrix.exp_conjTranspose, hA,
    ← Matrix.exp_add_of_commute _ _ (Commute.refl A).neg_right, add_neg_cancel, NormedSpace.exp_zero]

/-- **C19** The result is unitary for real `τ`. -/
theorem c19_unitary (L : Lapack n) (hL : L.EighOk) (A : Matrix n n ℂ) (hA : Aᴴ = -A) (τ : ℝ) :
    ∃ U ∈ Matrix.unitaryGroup n ℂ, exp L A τ .spectral true = .ok U := by
  refine ⟨_, exp_skew_unitary (A := (τ : ℂ) • A) ?_, c19_exponential L hL A hA τ⟩
  rw [Matrix.conjTranspose_smul, hA]
  simp

/-- **C19** Semigroup law: `exp(s+t) = exp(s) exp(t)`, and `exp(0)` is the identity. -/
theorem c19_semigroup (L : Lapack n) (hL : L.EighOk) (A : Matrix n n ℂ) (hA : Aᴴ = -A) (s t : ℂ) :
    exp L A (s + t) .spectral true =
      (do pure ((← exp L A s .spectral true) * (← exp L A t .spectral true))) ∧
    exp L A 0 .spectral true = .ok 1 := by
  rw [c19_exponential L hL A hA, c19_exponential L hL A hA, c19_exponential L hL A hA,
    c19_exponential L hL A hA]
  constructor
  · rw [add_smul, Matrix.exp_add_of_commute _ _ (((Commute.refl A).smul_left s).smul_right t)]
    rfl
  · rw [zero_smul, NormedSpace.exp_zero]

/-- Non-vacuity: a skew Hermitian matrix that is not diagonal. -/
example : (!![Complex.I, 1; -1, 0] : Matrix (Fin 2) (Fin 2) ℂ)ᴴ = -!![Complex.I, 1; -1, 0] := by
  ext i j; fin_cases i <;> fin_cases j <;> simp [Matrix.conjTranspose_apply]

/-! ### C20 -/

/-- Diagonalisable matrices, the domain of C20. -/
def Diagonalizable (A : Matrix n n ℂ) : Prop := ∃ lam V, IsUnit V ∧ A * V = V * Matrix.diagonal lam

/-- The assumption on `eig` can be met: scale the columns of an eigenvector matrix to length one. -/
theorem eigOk_exists (n : Type) [Fintype n] [DecidableEq n] : ∃ L : Lapack n, L.EigOk := by
  classical
  have key : ∀ A : Matrix n n ℂ, Diagonalizable A → ∃ p : (n → ℂ) × Matrix n n ℂ,
      IsUnit p.2 ∧ A * p.2 = p.2 * Matrix.diagonal p.1 ∧ ∀ j, ∑ i, conj (p.2 i j) * p.2 i j = 1 := by
    rintro A ⟨lam, V, hV, hAV⟩
    have hdet : IsUnit V.det := (Matrix.isUnit_iff_isUnit_det V).mp hV
    set w : n → ℝ := fun j => ∑ i, Complex.normSq (V i j) with hw
    have hpos : ∀ j, 0 < w j := by
      intro j
      refine lt_of_le_of_ne (Finset.sum_nonneg fun i _ => Complex.normSq_nonneg _) fun h0 => ?_
      have hz : ∀ i, V i j = 0 := fun i => by
        have := (Finset.sum_eq_zero_iff_of_nonneg fun i _ => Complex.normSq_nonneg (V i j)).mp h0.symm i
          (Finset.mem_univ i)
        exact Complex.normSq_eq_zero.mp this
      have : V.det = 0 := Matrix.det_eq_zero_of_column_eq_zero j hz
      rw [this] at hdet
      simp at hdet
    set c : n → ℂ := fun j => ((Real.sqrt (w j))⁻¹ : ℝ) with hc
    have hc0 : ∀ j, c j ≠ 0 := fun j => by
      simp only [hc]
      exact_mod_cast inv_ne_zero (Real.sqrt_pos.mpr (hpos j)).ne'
    refine ⟨(lam, V * Matrix.diagonal c), ?_, ?_, fun j => ?_⟩
    · refine hV.mul ?_
      rw [Matrix.isUnit_iff_isUnit_det, Matrix.det_diagonal, isUnit_iff_ne_zero]
      exact Finset.prod_ne_zero_iff.mpr fun j _ => hc0 j
    · simp only
      rw [← Matrix.mul_assoc, hAV, Matrix.mul_assoc, Matrix.mul_assoc, Matrix.diagonal_mul_diagonal,
        Matrix.diagonal_mul_diagonal]
      congr 3
      ext j
      exact mul_comm _ _
    · simp only [Matrix.mul_diagonal, map_mul]
      have hcc : conj (c j) = c j := Complex.conj_ofReal _
      have : ∀ i, conj (V i j) * conj (c j) * (V i j * c j) = (c j * c j) * (Complex.normSq (V i j) : ℂ) := by
        intro i
        rw [hcc, Complex.normSq_eq_conj_mul_self]
        ring
      simp only [this]
      rw [← Finset.mul_sum]
      have hs : ∑ i, (Complex.normSq (V i j) : ℂ) = ((w j : ℝ) : ℂ) := by rw [hw]; push_cast; rfl
      rw [hs]
      simp only [hc]
      rw [← Complex.ofReal_mul, ← Complex.ofReal_mul, ← Complex.ofReal_one]
      congr 1
      rw [← mul_inv, Real.mul_self_sqrt (hpos j).le, inv_mul_cancel₀ (hpos j).ne']
  refine ⟨⟨fun _ => (0, 0), fun A => if h : Diagonalizable A then Classical.choose (key A h) else (0, 0), id,
    fun _ => id⟩, fun A h => ?_⟩
  simp only [dif_pos (show Diagonalizable A from h)]
  exact Classical.choose_spec (key A h)

/-- **C20**, part that holds: for normal matrices with distinct eigenvalues the general spectral method
returns the matrix exponential.  Missing: non-normal matrices, where the code is wrong (`c20_violated`), and
repeated eigenvalues, where `eig` need not return orthogonal eigenvectors. -/
theorem c20_normal_partial (L : Lapack n) (hL : L.EigOk) (A : Matrix n n ℂ) (hd : Diagonalizable A)
    (hn : A * Aᴴ = Aᴴ * A) (hinj : Function.Injective (L.eig A).1) (τ : ℂ) :
    exp L A τ = .ok (NormedSpace.exp (τ • A)) := by
  obtain ⟨hu, hAV, h1⟩ := hL A hd
  have hdec : decomp L A false = L.eig A := rfl
  simp only [exp, expDiagonalize]
  rw [hdec, expEinsum_eq]
  generalize (L.eig A).1 = lam at *
  generalize (L.eig A).2 = V at *
  congr 1
  apply UnitaryDecomp.exp_eq
  refine ⟨?_, hAV⟩
  have hdet : IsUnit V.det := (Matrix.isUnit_iff_isUnit_det V).mp hu
  have hVi : V⁻¹ * V = 1 := Matrix.nonsing_inv_mul V hdet
  have hVi' : V * V⁻¹ = 1 := Matrix.mul_nonsing_inv V hdet
  -- `B = V⁻¹ A† V` commutes with the diagonal matrix, hence is diagonal
  set B := V⁻¹ * Aᴴ * V with hB
  have hcomm : B * Matrix.diagonal lam = Matrix.diagonal lam * B := by
    have h2 : Matrix.diagonal lam = V⁻¹ * A * V := by
      rw [Matrix.mul_assoc, hAV, ← Matrix.mul_assoc, hVi, Matrix.one_mul]
    rw [h2, hB]
    calc V⁻¹ * Aᴴ * V * (V⁻¹ * A * V) = V⁻¹ * Aᴴ * (V * V⁻¹) * A * V := by simp only [Matrix.mul_assoc]
      _ = V⁻¹ * (Aᴴ * A) * V := by rw [hVi']; simp only [Matrix.mul_assoc, Matrix.one_mul]
      _ = V⁻¹ * (A * Aᴴ) * V := by rw [hn]
      _ = V⁻¹ * A * (V * V⁻¹) * Aᴴ * V := by rw [hVi']; simp only [Matrix.mul_assoc, Matrix.one_mul]
      _ = V⁻¹ * A * V * (V⁻¹ * Aᴴ * V) := by simp only [Matrix.mul_assoc]
  have hBd : B = Matrix.diagonal fun i => B i i := by
    ext i j
    by_cases hij : i = j
    · subst hij; simp
    · rw [Matrix.diagonal_apply_ne _ hij]
      have := congrFun (congrFun hcomm i) j
      rw [Matrix.mul_diagonal, Matrix.diagonal_mul] at this
      have hne : lam j - lam i ≠ 0 := sub_ne_zero.mpr fun h => hij (hinj h).symm
      have h3 : B i j * (lam j - lam i) = 0 := by linear_combination this
      exact (mul_eq_zero.mp h3).resolve_right hne
  have hAhV : Aᴴ * V = V * Matrix.diagonal fun i => B i i := by
    rw [← hBd, hB, ← Matrix.mul_assoc, ← Matrix.mul_assoc, hVi', Matrix.one_mul]
  have hVhA : Vᴴ * A = Matrix.diagonal (fun i => conj (B i i)) * Vᴴ := by
    have := congrArg Matrix.conjTranspose hAhV
    rw [Matrix.conjTranspose_mul, Matrix.conjTranspose_mul, Matrix.conjTranspose_conjTranspose,
      Matrix.diagonal_conjTranspose] at this
    exact this
  set G := Vᴴ * V with hG
  have hGe : ∀ i j, conj (B i i) * G i j = G i j * lam j := by
    intro i j
    have : Matrix.diagonal (fun i => conj (B i i)) * G = G * Matrix.diagonal lam := by
      rw [hG, ← Matrix.mul_assoc, ← hVhA, Matrix.mul_assoc, hAV, Matrix.mul_assoc]
    have := congrFun (congrFun this i) j
    rwa [Matrix.mul_diagonal, Matrix.diagonal_mul] at this
  have hGd : ∀ i, G i i = 1 := fun i => by
    rw [hG, Matrix.mul_apply]
    simpa [Matrix.conjTranspose_apply] using h1 i
  have hG1 : G = 1 := by
    ext i j
    by_cases hij : i = j
    · subst hij; rw [hGd, Matrix.one_apply_eq]
    · rw [Matrix.one_apply_ne hij]
      have hb : conj (B i i) = lam i := by simpa [hGd] using hGe i i
      have h3 := hGe i j
      rw [hb] at h3
      have hne : lam i - lam j ≠ 0 := sub_ne_zero.mpr fun h => hij (hinj h)
      have h4 : (lam i - lam j) * G i j = 0 := by linear_combination h3
      exact (mul_eq_zero.mp h4).resolve_left hne
  exact Matrix.mem_unitaryGroup_iff'.mpr hG1

/-- **C20** is violated by every diagonalisable matrix that is not normal: whatever eigenvectors `eig`
returns, `exp(tau=0)` is not the identity, because the code uses the adjoint of the eigenvector matrix in
place of its inverse. -/
theorem c20_violated (L : Lapack n) (hL : L.EigOk) (A : Matrix n n ℂ) (hd : Diagonalizable A)
    (hn : A * Aᴴ ≠ Aᴴ * A) : exp L A 0 ≠ .ok (NormedSpace.exp ((0 : ℂ) • A)) := by
  obtain ⟨hu, hAV, -⟩ := hL A hd
  have hdec : decomp L A false = L.eig A := rfl
  simp only [exp, expDiagonalize]
  rw [hdec, expEinsum_eq]
  generalize (L.eig A).1 = lam at *
  generalize (L.eig A).2 = V at *
  intro h
  simp only [Except.ok.injEq, zero_smul, NormedSpace.exp_zero, zero_mul, Complex.exp_zero] at h
  have h1 : V * Vᴴ = 1 := by
    rwa [show Matrix.diagonal (fun _ : n => (1 : ℂ)) = 1 from Matrix.diagonal_one, Matrix.mul_one] at h
  have hU : UnitaryDecomp A lam V := ⟨Matrix.mem_unitaryGroup_iff.mpr h1, hAV⟩
  apply hn
  have hV := conjTranspose_mul_unitary hU.1
  have hA : Aᴴ = V * Matrix.diagonal (star lam) * Vᴴ := by
    rw [hU.eq, Matrix.conjTranspose_mul, Matrix.conjTranspose_mul, Matrix.conjTranspose_conjTranspose,
      Matrix.diagonal_conjTranspose, Matrix.mul_assoc]
  have key : ∀ a b : n → ℂ, (V * Matrix.diagonal a * Vᴴ) * (V * Matrix.diagonal b * Vᴴ)
      = V * Matrix.diagonal (fun i => a i * b i) * Vᴴ := by
    intro a b
    calc _ = V * Matrix.diagonal a * (Vᴴ * V) * Matrix.diagonal b * Vᴴ := by simp only [Matrix.mul_assoc]
      _ = V * (Matrix.diagonal a * Matrix.diagonal b) * Vᴴ := by rw [hV]; simp only [Matrix.mul_assoc, Matrix.one_mul]
      _ = _ := by rw [Matrix.diagonal_mul_diagonal]
  rw [hA]
  conv_lhs => rw [hU.eq]
  conv_rhs => rw [hU.eq]
  rw [key, key]
  congr 3
  ext i
  exact mul_comm _ _

/-- A diagonalisable matrix that is not normal: the code returns a wrong exponential for it. -/
theorem c20_violated_witness :
    Diagonalizable (!![0, 1; 0, 1] : Matrix (Fin 2) (Fin 2) ℂ) ∧
      (!![0, 1; 0, 1] : Matrix (Fin 2) (Fin 2) ℂ) * (!![0, 1; 0, 1])ᴴ ≠ (!![0, 1; 0, 1])ᴴ * !![0, 1; 0, 1] := by
  constructor
  · refine ⟨![0, 1], !![1, 1; 0, 1], ?_, ?_⟩
    · rw [Matrix.isUnit_iff_isUnit_det]; simp [Matrix.det_fin_two]
    · ext i j; fin_cases i <;> fin_cases j <;> simp [Matrix.mul_apply, Fin.sum_univ_two]
  · intro h
    have := congrFun (congrFun h 0) 0
    simp [Matrix.mul_apply, Fin.sum_univ_two, Matrix.conjTranspose_apply] at this

/-! ### C22 -/

section Taylor

section Generic
variable {𝔸 : Type} [NormedRing 𝔸] [NormedAlgebra ℂ 𝔸]

theorem hasDerivAt_line (A D : 𝔸) : HasDerivAt (fun x : ℂ => A + x • D) D 0 := by
  have h := (hasDerivAt_id (0 : ℂ)).smul_const D
  rw [one_smul] at h
  exact h.const_add A

theorem hasDerivAt_line2 (A D : 𝔸) :
    HasDerivAt (fun x : ℂ => (A + x • D) * (A + x • D)) (A * D + D * A) 0 := by
  have := (hasDerivAt_line A D).fun_mul (hasDerivAt_line A D)
  rw [zero_smul, add_zero, add_comm] at this
  exact this

theorem hasDerivAt_line3 (A D : 𝔸) :
    HasDerivAt (fun x : ℂ => (A + x • D) * (A + x • D) * (A + x • D)) (A * A * D + D * A * A + A * D * A) 0 := by
  have := (hasDerivAt_line2 A D).fun_mul (hasDerivAt_line A D)
  rw [zero_smul, add_zero] at this
  convert this using 1
  rw [add_mul]
  abel

theorem hasDerivAt_first (A D : 𝔸) (τ : ℂ) : HasDerivAt (fun x : ℂ => 1 + τ • (A + x • D)) (τ • D) 0 :=
  ((hasDerivAt_line A D).const_smul τ).const_add 1

theorem hasDerivAt_second (A D : 𝔸) (τ : ℂ) :
    HasDerivAt (fun x : ℂ => 1 + τ • (A + x • D) + (τ * τ * (1 / 2)) • ((A + x • D) * (A + x • D)))
      (τ • D + (τ * τ * (1 / 2)) • (A * D + D * A)) 0 :=
  (hasDerivAt_first A D τ).add ((hasDerivAt_line2 A D).const_smul (τ * τ * (1 / 2)))

theorem hasDerivAt_third (A D : 𝔸) (τ : ℂ) :
    HasDerivAt (fun x : ℂ => 1 + τ • (A + x • D) + (1 / 2 : ℂ) • ((τ • (A + x • D)) * (τ • (A + x • D))) +
        (1 / 3 : ℂ) • (((1 / 2 : ℂ) • ((τ • (A + x • D)) * (τ • (A + x • D)))) * (τ • (A + x • D))))
      (τ • D + (τ * τ * (1 / 2)) • (A * D + D * A) +
        (τ * τ * τ * (1 / 6)) • (A * A * D + D * A * A + A * D * A)) 0 := by
  have := (hasDerivAt_second A D τ).add ((hasDerivAt_line3 A D).const_smul (τ * τ * τ * (1 / 6)))
  refine this.congr_of_eventuallyEq (Filter.Eventually.of_forall fun x => ?_)
  simp only [Pi.add_apply, Pi.smul_apply, smul_mul_assoc, mul_smul_comm, smul_smul]
  module

end Generic

open scoped Matrix.Norms.Operator in
/-- **C22** For the Taylor methods `dexp` returns the derivative at 0 of `x ↦ exp(A + x D)` computed with the
same method, for complex (hence also real) `x`. -/
theorem c22_taylor (L : Lapack n) (A D : Matrix n n ℂ) (τ : ℂ) (m : Method)
    (hm : m = .first ∨ m = .second ∨ m = .third) (c skew skew' : Bool) (ε : ℝ) :
    ∃ (F : ℂ → Matrix n n ℂ) (g : Matrix n n ℂ) (p : Option (Matrix n n ℂ)),
      (∀ x, exp L (A + x • D) τ m skew = .ok (F x)) ∧ dexp L A D τ c m skew' ε = .ok ⟨p, some g⟩ ∧
      HasDerivAt F g 0 := by
  rcases hm with rfl | rfl | rfl
  · exact ⟨_, _, _, fun x => rfl, rfl, hasDerivAt_first A D τ⟩
  · exact ⟨_, _, _, fun x => rfl, rfl, hasDerivAt_second A D τ⟩
  · exact ⟨_, _, _, fun x => rfl, rfl, hasDerivAt_third A D τ⟩

end Taylor

/-! ### C23 -/

/-- **C23**, part that holds: the propagator returned by `dexp(compute_expm=True)` is `exp` with the same
arguments for the methods `spectral` and `Frechet`.  Missing: `approx` and the Taylor methods, for which the
code returns `exp` with the default method instead (`c23_default`, `c23_violated`). -/
theorem c23_consistent_partial (L : Lapack n) (A D : Matrix n n ℂ) (τ : ℂ) (skew : Bool) (ε : ℝ) (m : Method)
    (hm : m = .spectral ∨ m = .frechet) :
    ∃ p g, dexp L A D τ true m skew ε = .ok ⟨some p, g⟩ ∧ exp L A τ m skew = .ok p := by
  rcases hm with rfl | rfl
  · refine ⟨_, _, rfl, ?_⟩
    simp only [exp, expDiagonalize, expEinsum_eq, dexpDiagonalization]
  · exact ⟨_, _, rfl, rfl⟩

/-- For all other known methods the propagator is that of `exp(tau)` with default arguments. -/
theorem c23_default (L : Lapack n) (A D : Matrix n n ℂ) (τ : ℂ) (skew : Bool) (ε : ℝ) (m : Method)
    (hm : m = .approx ∨ m = .first ∨ m = .second ∨ m = .third) :
    ∃ p g, dexp L A D τ true m skew ε = .ok ⟨some p, g⟩ ∧ exp L A τ = .ok p := by
  rcases hm with rfl | rfl | rfl | rfl <;> exact ⟨_, _, rfl, rfl⟩

/-- `compute_expm` does not influence the derivative, and without it no propagator is returned. -/
theorem c23_grad_independent (L : Lapack n) (A D : Matrix n n ℂ) (τ : ℂ) (skew : Bool) (ε : ℝ) (m : Method)
    (hm : m ≠ .other) :
    ∃ p g, dexp L A D τ true m skew ε = .ok ⟨some p, g⟩ ∧ dexp L A D τ false m skew ε = .ok ⟨none, g⟩ := by
  cases m <;> first | exact ⟨_, _, rfl, rfl⟩ | exact absurd rfl hm

/-- **C23** is violated: for the 1×1 matrix 1 and `tau=1` the method `first_order` returns the propagator e,
while `exp(method='first_order')` is 2. -/
theorem c23_violated (L : Lapack (Fin 1)) (hL : L.EigOk) (D : Matrix (Fin 1) (Fin 1) ℂ) (skew : Bool) (ε : ℝ) :
    ∃ p g, dexp L 1 D 1 true .first skew ε = .ok ⟨some p, g⟩ ∧ exp L 1 1 .first skew ≠ .ok p := by
  refine ⟨_, _, rfl, ?_⟩
  obtain ⟨-, hAV, h1⟩ := hL 1 ⟨fun _ => 1, 1, isUnit_one, by simp⟩
  simp only [exp, ne_eq, Except.ok.injEq]
  intro h
  have h00 := congrFun (congrFun h 0) 0
  have hn := h1 0
  have he := congrFun (congrFun hAV 0) 0
  simp only [Fin.sum_univ_one, Matrix.one_mul, Matrix.mul_diagonal] at hn he
  have hne : (L.eig 1).2 0 0 ≠ 0 := by intro h0; rw [h0] at hn; simp at hn
  have hl : (L.eig 1).1 0 = 1 := by
    have : (L.eig 1).2 0 0 * ((L.eig 1).1 0 - 1) = 0 := by linear_combination -he
    have := (mul_eq_zero.mp this).resolve_left hne
    linear_combination this
  simp only [expDiagonalize, expEinsum, decomp, Bool.false_eq_true, if_false, Matrix.of_apply, Fin.sum_univ_one, hl,
    Matrix.add_apply, Matrix.one_apply_eq, Matrix.smul_apply, smul_eq_mul, mul_one] at h00
  have h2 : (2 : ℂ) = Complex.exp 1 := by linear_combination h00 + Complex.exp 1 * hn
  have h3 : (2 : ℝ) = Real.exp 1 := by
    have := congrArg Complex.re h2
    simpa [Complex.exp_re] using this
  have := Real.exp_one_gt_d9
  norm_num at this
  linarith

end Verif.Operator
