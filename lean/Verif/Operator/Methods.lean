import Verif.Operator.DexpThms

/-!
# Property theorems C91 (Frechet and finite-difference derivatives, unknown methods) and C92 (accuracy of the Taylor methods)
-/

namespace Verif.Operator
open Verif Matrix

variable {n : Type} [Fintype n] [DecidableEq n]

/-! ## C91 -/

/-- **C91** `dexp(method='Frechet')` returns the derivative of `exp(tau (A + x D))` at `x = 0`. -/
theorem c91_frechet (L : Lapack n) (hF : L.FrechetOk) (A D : Matrix n n ℂ) (τ : ℂ) (ce skew : Bool) (ε : ℝ) :
    ∃ p g, dexp L A D τ ce .frechet skew ε = .ok ⟨p, some g⟩ ∧
      MatDeriv (fun x : ℝ => NormedSpace.exp (τ • (A + (x : ℂ) • D))) g 0 := by
  refine ⟨_, _, rfl, ?_⟩
  have e : (fun x : ℝ => NormedSpace.exp (τ • (A + (x : ℂ) • D))) = fun x : ℝ => NormedSpace.exp (τ • A + (x : ℂ) • (τ • D)) := by
    funext x
    rw [smul_add, smul_comm]
  rw [e]
  exact hF _ _

/-- **C91** (partial): if the default exponential is right (for normal matrices with distinct eigenvalues, C20), `dexp(method='approx')`
tends to the derivative as `epsilon` tends to zero.  Missing: other matrices (`c91_violated_approx`). -/
theorem c91_approx_partial (L : Lapack n) (hL : L.EigOk) (hE : L.ExpmOk) (A D : Matrix n n ℂ) (hd : Diagonalizable A)
    (hn : A * Aᴴ = Aᴴ * A) (hinj : Function.Injective (L.eig A).1) (τ : ℂ) (ce skew : Bool) (G : Matrix n n ℂ)
    (hG : MatDeriv (fun x : ℝ => NormedSpace.exp (τ • (A + (x : ℂ) • D))) G 0) :
    ∃ (p : Option (Matrix n n ℂ)) (g : ℝ → Matrix n n ℂ), (∀ ε, dexp L A D τ ce .approx skew ε = .ok ⟨p, some (g ε)⟩) ∧
      ∀ i j, Filter.Tendsto (fun ε => g ε i j) (nhdsWithin 0 {0}ᶜ) (nhds (G i j)) := by
  have hexp := c20_normal_partial L hL A hd hn hinj τ
  refine ⟨if ce then some (NormedSpace.exp (τ • A)) else none,
    fun ε => (1 / (ε : ℂ)) • (NormedSpace.exp (τ • (A + (ε : ℂ) • D)) - NormedSpace.exp (τ • A)), ?_, ?_⟩
  · intro ε
    simp only [dexp, hexp, bind, Except.bind, pure, Except.pure]
    rw [hE]
  · intro i j
    have := hasDerivAt_iff_tendsto_slope_zero.mp (hG i j)
    refine this.congr fun ε => ?_
    simp only [zero_add, Complex.ofReal_zero, zero_smul, add_zero, Matrix.smul_apply, Matrix.sub_apply, smul_eq_mul, one_div]
    rw [Complex.real_smul, Complex.ofReal_inv]

/-- **C91** (violated): wherever the default exponential differs from the matrix exponential, some entry of `dexp(method='approx')` grows
beyond all bounds as `epsilon` tends to zero, for every direction. -/
theorem c91_violated_approx (L : Lapack n) (hE : L.ExpmOk) (A D P : Matrix n n ℂ) (τ : ℂ) (ce skew : Bool)
    (hP : exp L A τ = .ok P) (hne : P ≠ NormedSpace.exp (τ • A)) :
    ∃ (p : Option (Matrix n n ℂ)) (g : ℝ → Matrix n n ℂ), (∀ ε, dexp L A D τ ce .approx skew ε = .ok ⟨p, some (g ε)⟩) ∧
      ∃ i j, Filter.Tendsto (fun ε => ‖g ε i j‖) (nhdsWithin 0 {0}ᶜ) Filter.atTop := by
  refine ⟨if ce then some P else none, fun ε => (1 / (ε : ℂ)) • (NormedSpace.exp (τ • (A + (ε : ℂ) • D)) - P), ?_, ?_⟩
  · intro ε
    simp only [dexp, hP, bind, Except.bind, pure, Except.pure]
    rw [hE]
  · have : ∃ i j, NormedSpace.exp (τ • A) i j - P i j ≠ 0 := by
      by_contra hc
      push Not at hc
      exact hne (by ext i j; exact (sub_eq_zero.mp (hc i j)).symm)
    obtain ⟨i, j, hij⟩ := this
    refine ⟨i, j, ?_⟩
    have hderiv := matDeriv_exp_line (τ • A) (τ • D) i j
    have hcont := hderiv.continuousAt.tendsto
    have hc2 : Filter.Tendsto (fun ε : ℝ => ‖NormedSpace.exp (τ • (A + (ε : ℂ) • D)) i j - P i j‖) (nhdsWithin 0 {0}ᶜ)
        (nhds ‖NormedSpace.exp (τ • A) i j - P i j‖) := by
      have e : ∀ ε : ℝ, NormedSpace.exp (τ • (A + (ε : ℂ) • D)) i j = NormedSpace.exp (τ • A + (ε : ℂ) • (τ • D)) i j := by
        intro ε
        rw [smul_add, smul_comm]
      simp only [e]
      have := (hcont.sub_const (P i j)).norm
      simp only [Complex.ofReal_zero, zero_smul, add_zero] at this
      exact this.mono_left nhdsWithin_le_nhds
    have hinv : Filter.Tendsto (fun ε : ℝ => ‖ε‖⁻¹) (nhdsWithin 0 {0}ᶜ) Filter.atTop := by
      simpa using (tendsto_norm_inv_nhdsNE_zero_atTop (α := ℝ))
    have := hinv.atTop_mul_pos (norm_pos_iff.mpr hij) hc2
    refine this.congr fun ε => ?_
    simp only [Matrix.smul_apply, Matrix.sub_apply, smul_eq_mul, norm_mul, one_div, norm_inv, Complex.norm_real]

/-- The matrix of `c20_violated_witness` for every `tau`: the default exponential is wrong, whichever eigenvectors are chosen. -/
theorem c91_violated_witness (L : Lapack (Fin 2)) (hL : L.EigOk) (τ : ℂ) :
    ∃ P, exp L !![0, 1; 0, 1] τ = .ok P ∧ P ≠ NormedSpace.exp (τ • (!![0, 1; 0, 1] : Matrix (Fin 2) (Fin 2) ℂ)) := by
  refine ⟨_, rfl, ?_⟩
  obtain ⟨hu, hAV, h1⟩ := hL _ c20_violated_witness.1
  have hdec : decomp L (!![0, 1; 0, 1] : Matrix (Fin 2) (Fin 2) ℂ) false = L.eig !![0, 1; 0, 1] := rfl
  intro h
  simp only [expDiagonalize, hdec] at h
  generalize (L.eig !![0, 1; 0, 1]).1 = lam at *
  generalize (L.eig !![0, 1; 0, 1]).2 = V at *
  have hexp : NormedSpace.exp (τ • (!![0, 1; 0, 1] : Matrix (Fin 2) (Fin 2) ℂ)) 1 1 = Complex.exp τ := by
    have hU : IsUnit (!![1, 1; 0, 1] : Matrix (Fin 2) (Fin 2) ℂ) := by
      rw [Matrix.isUnit_iff_isUnit_det]; simp [Matrix.det_fin_two]
    have hinv : (!![1, 1; 0, 1] : Matrix (Fin 2) (Fin 2) ℂ)⁻¹ = !![1, -1; 0, 1] := by
      apply Matrix.inv_eq_right_inv
      ext i j; fin_cases i <;> fin_cases j <;> simp [Matrix.mul_apply, Fin.sum_univ_two]
    have e : τ • (!![0, 1; 0, 1] : Matrix (Fin 2) (Fin 2) ℂ) = !![1, 1; 0, 1] * Matrix.diagonal ![0, τ] * (!![1, 1; 0, 1])⁻¹ := by
      rw [hinv]
      ext i j; fin_cases i <;> fin_cases j <;> simp [Matrix.mul_apply, Fin.sum_univ_two, Matrix.vecMul_diagonal]
    rw [e, Matrix.exp_conj _ _ hU, Matrix.exp_diagonal, hinv]
    have hpi : ∀ i, NormedSpace.exp (![0, τ] : Fin 2 → ℂ) i = Complex.exp (![0, τ] i) := fun i => by
      rw [Pi.coe_exp, ← Complex.exp_eq_exp_ℂ]
    simp [Matrix.mul_apply, Fin.sum_univ_two, Matrix.vecMul_diagonal, hpi]
  have hcol : ∀ j, V 1 j = lam j * V 0 j ∧ V 1 j = lam j * V 1 j := by
    intro j
    have a := congrFun (congrFun hAV 0) j
    have b := congrFun (congrFun hAV 1) j
    rw [Matrix.mul_diagonal] at a b
    simp [Matrix.mul_apply, Fin.sum_univ_two] at a b
    exact ⟨by rw [a]; ring, by rw [mul_comm]; exact b⟩
  have hent : ∀ j, V 1 j = 0 ∨ (lam j = 1 ∧ V 0 j = V 1 j) := by
    intro j
    obtain ⟨a, b⟩ := hcol j
    by_cases h0 : V 1 j = 0
    · exact Or.inl h0
    · right
      have : lam j = 1 := by
        have : (lam j - 1) * V 1 j = 0 := by linear_combination -b
        rcases mul_eq_zero.mp this with h | h
        · linear_combination h
        · exact absurd h h0
      exact ⟨this, by rw [a, this, one_mul]⟩
  have h11 := congrFun (congrFun h 1) 1
  rw [hexp] at h11
  simp only [expEinsum, Matrix.of_apply, Fin.sum_univ_two] at h11
  have hdet : V 0 0 * V 1 1 - V 0 1 * V 1 0 ≠ 0 := by
    have := (Matrix.isUnit_iff_isUnit_det V).mp hu
    rw [Matrix.det_fin_two] at this
    exact this.ne_zero
  have hexpne := Complex.exp_ne_zero τ
  have hhalf : ∀ j, V 0 j = V 1 j → V 1 j * (starRingEnd ℂ) (V 1 j) = 1 / 2 := by
    intro j e
    have := h1 j
    simp only [Fin.sum_univ_two, e] at this
    linear_combination this / 2
  rcases hent 0 with a | ⟨a, a'⟩ <;> rcases hent 1 with b | ⟨b, b'⟩
  · apply hdet; rw [a, b]; ring
  · rw [a, b] at h11
    have := hhalf 1 b'
    apply hexpne
    have h2 : Complex.exp τ * (V 1 1 * (starRingEnd ℂ) (V 1 1)) = Complex.exp τ := by
      simp only [mul_one, zero_mul, zero_add] at h11
      linear_combination h11
    rw [this] at h2
    linear_combination (-2) * h2
  · rw [a, b] at h11
    have := hhalf 0 a'
    apply hexpne
    have h2 : Complex.exp τ * (V 1 0 * (starRingEnd ℂ) (V 1 0)) = Complex.exp τ := by
      simp only [mul_one, zero_mul, add_zero] at h11
      linear_combination h11
    rw [this] at h2
    linear_combination (-2) * h2
  · apply hdet; rw [a', b']; ring

/-- Numerical routines meeting the assumptions. -/
theorem routines_exist (n : Type) [Fintype n] [DecidableEq n] : ∃ L : Lapack n, L.EigOk ∧ L.ExpmOk ∧ L.FrechetOk := by
  obtain ⟨L, h⟩ := eigOk_exists n
  have h3 : ∀ A D : Matrix n n ℂ, ∃ g, MatDeriv (fun x : ℝ => NormedSpace.exp (A + (x : ℂ) • D)) g 0 := fun A D => ⟨_, matDeriv_exp_line A D⟩
  choose f hf using h3
  exact ⟨⟨L.eigh, L.eig, NormedSpace.exp, f⟩, h, fun A => rfl, hf⟩

/-- A matrix meeting the hypotheses of `c20_normal_partial` and `c91_approx_partial`, with a direction which does not commute with it. -/
example : ∃ (L : Lapack (Fin 2)) (A D G : Matrix (Fin 2) (Fin 2) ℂ), L.EigOk ∧ L.ExpmOk ∧ L.FrechetOk ∧ Diagonalizable A ∧ A * Aᴴ = Aᴴ * A ∧
    Function.Injective (L.eig A).1 ∧ A * D ≠ D * A ∧ MatDeriv (fun x : ℝ => NormedSpace.exp ((2 : ℂ) • (A + (x : ℂ) • D))) G 0 := by
  obtain ⟨L, h1, h2, h3⟩ := routines_exist (Fin 2)
  have hd : Diagonalizable (!![0, 0; 0, 1] : Matrix (Fin 2) (Fin 2) ℂ) := by
    refine ⟨![0, 1], 1, isUnit_one, ?_⟩
    ext i j; fin_cases i <;> fin_cases j <;> simp
  obtain ⟨p, G, -, hG⟩ := c91_frechet L h3 !![0, 0; 0, 1] !![0, 1; 1, 0] 2 false false 1
  refine ⟨L, !![0, 0; 0, 1], !![0, 1; 1, 0], G, h1, h2, h3, hd, ?_, ?_, ?_, hG⟩
  · ext i j; fin_cases i <;> fin_cases j <;> simp [Matrix.mul_apply, Fin.sum_univ_two]
  · obtain ⟨hu, hAV, -⟩ := h1 _ hd
    generalize (L.eig !![0, 0; 0, 1]).1 = lam at *
    generalize (L.eig !![0, 0; 0, 1]).2 = V at *
    have hne : lam 0 ≠ lam 1 := by
      intro he
      have hs : (Matrix.diagonal lam : Matrix (Fin 2) (Fin 2) ℂ) = lam 0 • 1 := by
        ext i j; fin_cases i <;> fin_cases j <;> simp [he]
      rw [hs, Matrix.mul_smul, Matrix.mul_one] at hAV
      have hA : (!![0, 0; 0, 1] : Matrix (Fin 2) (Fin 2) ℂ) = lam 0 • 1 := by
        apply hu.mul_right_cancel
        rw [hAV, Matrix.smul_mul, Matrix.one_mul]
      have a := congrFun (congrFun hA 0) 0
      have b := congrFun (congrFun hA 1) 1
      simp at a b
      rw [← a] at b
      exact one_ne_zero b
    intro i j hij
    fin_cases i <;> fin_cases j
    · rfl
    · exact absurd hij hne
    · exact absurd hij.symm hne
    · rfl
  · intro h
    have := congrFun (congrFun h 0) 1
    simp [Matrix.mul_apply, Fin.sum_univ_two] at this

/-- A Lapack meeting the hypotheses of `c91_violated_approx` and `c91_violated_witness`. -/
example : ∃ (L : Lapack (Fin 2)) (P : Matrix (Fin 2) (Fin 2) ℂ), L.ExpmOk ∧ exp L !![0, 1; 0, 1] 3 = .ok P ∧
    P ≠ NormedSpace.exp ((3 : ℂ) • (!![0, 1; 0, 1] : Matrix (Fin 2) (Fin 2) ℂ)) := by
  obtain ⟨L, h1, h2, h3⟩ := routines_exist (Fin 2)
  obtain ⟨P, e, hP⟩ := c91_violated_witness L h1 3
  exact ⟨L, P, h2, e, hP⟩

/-- **C91** Unknown methods are rejected, and only these. -/
theorem c91_unknown (L : Lapack n) (A D : Matrix n n ℂ) (τ : ℂ) (ce skew : Bool) (ε : ℝ) (m : Method) :
    ((∃ P, exp L A τ m skew = .ok P) ↔ m ≠ .other) ∧ ((∃ r, dexp L A D τ ce m skew ε = .ok r) ↔ m ≠ .other) ∧
    exp L A τ .other skew = .error .valueError ∧ dexp L A D τ ce .other skew ε = .error .notImplementedError := by
  refine ⟨?_, ?_, rfl, rfl⟩
  · cases m <;> simp [exp]
  · cases m <;> simp [dexp, exp, bind, Except.bind, pure, Except.pure]

/-! ## C92 -/

open scoped Matrix.Norms.Operator in
theorem exp_remainder (X : Matrix n n ℂ) (k : Nat) (hk : 0 < k) :
    ‖NormedSpace.exp X - ∑ i ∈ Finset.range k, ((i.factorial : ℂ)⁻¹) • X ^ i‖ ≤ ‖X‖ ^ k / k.factorial * Real.exp ‖X‖ := by
  have hs : HasSum (fun i : ℕ => ((i.factorial : ℂ)⁻¹) • X ^ i) (NormedSpace.exp X) := NormedSpace.exp_series_hasSum_exp' X
  have hs' := (hasSum_nat_add_iff' k).mpr hs
  have hr : HasSum (fun i : ℕ => ‖X‖ ^ k / k.factorial * (‖X‖ ^ i / i.factorial)) (‖X‖ ^ k / k.factorial * Real.exp ‖X‖) := by
    apply HasSum.mul_left
    rw [Real.exp_eq_exp_ℝ]
    exact NormedSpace.expSeries_div_hasSum_exp ‖X‖
  refine hs'.norm_le_of_bounded hr fun i => ?_
  rw [norm_smul, norm_inv, Complex.norm_natCast]
  have h1 : ‖X ^ (i + k)‖ ≤ ‖X‖ ^ (i + k) := norm_pow_le' X (by omega)
  have h2 : ((i.factorial * k.factorial : ℕ) : ℝ) ≤ (i + k).factorial := by
    exact_mod_cast Nat.le_of_dvd (Nat.factorial_pos _) (Nat.factorial_mul_factorial_dvd_factorial_add i k)
  have hp1 : (0 : ℝ) < i.factorial := by exact_mod_cast Nat.factorial_pos i
  have hp2 : (0 : ℝ) < k.factorial := by exact_mod_cast Nat.factorial_pos k
  have hp3 : (0 : ℝ) < (i + k).factorial := by exact_mod_cast Nat.factorial_pos (i + k)
  push_cast at h2
  calc ((i + k).factorial : ℝ)⁻¹ * ‖X ^ (i + k)‖ ≤ (i.factorial * k.factorial : ℝ)⁻¹ * ‖X‖ ^ (i + k) := by
        apply mul_le_mul _ h1 (norm_nonneg _) (by positivity)
        exact inv_anti₀ (by positivity) h2
    _ = _ := by rw [pow_add]; field_simp

open scoped Matrix.Norms.Operator in
theorem row_le_norm (B : Matrix n n ℂ) (i : n) : ∑ j, ‖B i j‖ ≤ ‖B‖ := by
  rw [Matrix.linfty_opNorm_def]
  have := Finset.le_sup (f := fun i => ∑ j, ‖B i j‖₊) (Finset.mem_univ i)
  have h2 : ((∑ j, ‖B i j‖₊ : NNReal) : ℝ) ≤ _ := NNReal.coe_le_coe.mpr this
  simpa using h2

open scoped Matrix.Norms.Operator in
theorem norm_le_rows (B : Matrix n n ℂ) (r : ℝ) (hr : 0 ≤ r) (h : ∀ i, ∑ j, ‖B i j‖ ≤ r) : ‖B‖ ≤ r := by
  rw [Matrix.linfty_opNorm_def]
  lift r to NNReal using hr
  rw [NNReal.coe_le_coe, Finset.sup_le_iff]
  intro i _
  rw [← NNReal.coe_le_coe]
  simpa using h i

/-- The order of the Taylor methods. -/
def Method.order : Method → Option Nat
  | .first => some 1
  | .second => some 2
  | .third => some 3
  | _ => none

open scoped Matrix.Norms.Operator in
/-- **C92** The Taylor method of order `k` differs from the matrix exponential by at most `r^(k+1)/(k+1)! * exp(r)` in every row sum, where
`r` bounds the row sums of `tau A`. -/
theorem c92_taylor_error (L : Lapack n) (A : Matrix n n ℂ) (τ : ℂ) (skew : Bool) (m : Method) (k : Nat) (hm : m.order = some k) (r : ℝ)
    (hr : ∀ i, ∑ j, ‖(τ • A) i j‖ ≤ r) :
    ∃ P, exp L A τ m skew = .ok P ∧
      ∀ i, ∑ j, ‖(NormedSpace.exp (τ • A) - P) i j‖ ≤ r ^ (k + 1) / (k + 1).factorial * Real.exp r := by
  have hP : ∃ P, exp L A τ m skew = .ok P ∧ P = ∑ i ∈ Finset.range (k + 1), ((i.factorial : ℂ)⁻¹) • (τ • A) ^ i := by
    cases m with
    | first =>
      cases hm
      refine ⟨_, rfl, ?_⟩
      simp [Finset.sum_range_succ]
    | second =>
      cases hm
      refine ⟨_, rfl, ?_⟩
      simp only [Finset.sum_range_succ, Finset.range_zero, Finset.sum_empty, zero_add, pow_zero, pow_one, Nat.factorial_zero,
        Nat.factorial_one, Nat.factorial_two, Nat.cast_one, inv_one, one_smul, pow_two, Matrix.smul_mul, Matrix.mul_smul, smul_smul]
      have e2 : τ * τ * (1 / 2) = ((2 : ℕ) : ℂ)⁻¹ * (τ * τ) := by push_cast; ring
      rw [e2, one_mul]
    | third =>
      cases hm
      refine ⟨_, rfl, ?_⟩
      have e3 : ((3 : ℕ).factorial : ℂ) = 6 := by norm_num [Nat.factorial]
      simp only [Finset.sum_range_succ, Finset.range_zero, Finset.sum_empty, zero_add, pow_zero, Nat.factorial_zero,
        Nat.factorial_one, Nat.factorial_two, Nat.cast_one, inv_one, one_smul, pow_succ, Matrix.smul_mul, Matrix.mul_smul, smul_smul,
        Matrix.one_mul, e3]
      have e2 : 1 / 2 * (τ * τ) = ((2 : ℕ) : ℂ)⁻¹ * (τ * τ) := by push_cast; ring
      have e6 : 1 / 3 * (τ * (((2 : ℕ) : ℂ)⁻¹ * (τ * τ))) = 6⁻¹ * (τ * (τ * τ)) := by push_cast; ring
      rw [e2, e6, one_mul]
    | _ => cases hm
  obtain ⟨P, h1, h2⟩ := hP
  refine ⟨P, h1, ?_⟩
  have hrem := exp_remainder (τ • A) (k + 1) (by omega)
  rw [← h2] at hrem
  intro i
  have hr0 : 0 ≤ r := le_trans (Finset.sum_nonneg fun j _ => norm_nonneg _) (hr i)
  refine (row_le_norm _ i).trans (hrem.trans ?_)
  have hX : ‖τ • A‖ ≤ r := norm_le_rows _ r hr0 hr
  gcongr

/-- The bound for a rotation by the angle 1/10 with the second order method. -/
example (L : Lapack (Fin 2)) : ∃ P, exp L !![0, 1; -1, 0] (1 / 10) .second = .ok P ∧
    ∀ i, ∑ j, ‖(NormedSpace.exp ((1 / 10 : ℂ) • (!![0, 1; -1, 0] : Matrix (Fin 2) (Fin 2) ℂ)) - P) i j‖ ≤
      (1 / 10) ^ 3 / (3 : ℕ).factorial * Real.exp (1 / 10) :=
  c92_taylor_error L _ _ false .second 2 rfl (1 / 10) fun i => by fin_cases i <;> simp [Fin.sum_univ_two]

end Verif.Operator
