import Verif.Operator.Duhamel
import Verif.Operator.ExpThms
import Mathlib.Tactic.Linarith

/-!
# Property theorems C21: derivative of the spectral exponential
-/

namespace Verif.Operator
open Verif Matrix
open scoped ComplexConjugate

variable {n : Type} [Fintype n] [DecidableEq n]

section Lemmas
open scoped Matrix.Norms.Operator

/-- The derivative of the exponential, as an integral. -/
theorem hasDerivAt_matrix_exp (A D : Matrix n n ℂ) :
    HasDerivAt (fun x : ℝ => NormedSpace.exp (A + (x : ℂ) • D))
      (∫ s in (0 : ℝ)..1, NormedSpace.exp (((1 - s : ℝ) : ℂ) • A) * D * NormedSpace.exp ((s : ℂ) • A)) 0 := by
  have h := hasDerivAt_exp_line (𝔸 := Matrix n n ℂ) A D
  exact h

theorem matDeriv_exp_line (A D : Matrix n n ℂ) :
    MatDeriv (fun x : ℝ => NormedSpace.exp (A + (x : ℂ) • D))
      (∫ s in (0 : ℝ)..1, NormedSpace.exp (((1 - s : ℝ) : ℂ) • A) * D * NormedSpace.exp ((s : ℂ) • A)) 0 :=
  MatDeriv.of_hasDerivAt (hasDerivAt_matrix_exp A D)

/-- The kernel `K(s)` with `K_ij(s) = τ ∫₀ˢ exp((1-r)τλ_i + rτλ_j) dr`. -/
noncomputable def kernel (lam : n → ℂ) (τ : ℂ) (s : ℝ) (i j : n) : ℂ :=
  if i = j then s * (τ * Complex.exp (τ * lam i))
  else Complex.exp (τ * lam i) * (Complex.exp (s * ((lam j - lam i) * τ)) - 1) / (lam j - lam i)

theorem hasDerivAt_kernel (lam : n → ℂ) (hinj : Function.Injective lam) (τ : ℂ) (s : ℝ) (i j : n) :
    HasDerivAt (fun s => kernel lam τ s i j)
      (Complex.exp (((1 - s : ℝ) : ℂ) * (τ * lam i)) * τ * Complex.exp ((s : ℂ) * (τ * lam j))) s := by
  have hs : HasDerivAt (fun s : ℝ => (s : ℂ)) 1 s := Complex.ofRealCLM.hasDerivAt
  by_cases hij : i = j
  · subst hij
    simp only [kernel, if_true]
    refine (hs.mul_const (τ * Complex.exp (τ * lam i))).congr_deriv ?_
    symm
    rw [mul_comm _ τ, mul_assoc, ← Complex.exp_add, one_mul]
    congr 2
    push_cast
    ring
  · simp only [kernel, if_neg hij]
    have hne : lam j - lam i ≠ 0 := sub_ne_zero.mpr fun h => hij (hinj h).symm
    have h1 : HasDerivAt (fun s : ℝ => Complex.exp (s * ((lam j - lam i) * τ)))
        (Complex.exp (s * ((lam j - lam i) * τ)) * (1 * ((lam j - lam i) * τ))) s :=
      (hs.mul_const ((lam j - lam i) * τ)).cexp
    refine (((h1.sub_const 1).const_mul (Complex.exp (τ * lam i))).div_const (lam j - lam i)).congr_deriv ?_
    symm
    rw [eq_div_iff hne]
    have : Complex.exp (((1 - s : ℝ) : ℂ) * (τ * lam i)) * Complex.exp ((s : ℂ) * (τ * lam j))
        = Complex.exp (τ * lam i) * Complex.exp (s * ((lam j - lam i) * τ)) := by
      rw [← Complex.exp_add, ← Complex.exp_add]
      congr 1
      push_cast
      ring
    linear_combination (τ * (lam j - lam i)) * this

/-- The derivative for a matrix with unitary diagonalisation and distinct eigenvalues. -/
theorem UnitaryDecomp.matDeriv_exp {A V : Matrix n n ℂ} {lam : n → ℂ} (h : UnitaryDecomp A lam V)
    (hinj : Function.Injective lam) (τ : ℂ) (D : Matrix n n ℂ) :
    MatDeriv (fun x : ℝ => NormedSpace.exp (τ • (A + (x : ℂ) • D)))
      (V * Matrix.of (fun i j => (Vᴴ * D * V) i j * kernel lam τ 1 i j) * Vᴴ) 0 := by
  have hd := hasDerivAt_matrix_exp (τ • A) (τ • D)
  have hfun : (fun x : ℝ => NormedSpace.exp (τ • (A + (x : ℂ) • D)))
      = fun x : ℝ => NormedSpace.exp (τ • A + (x : ℂ) • (τ • D)) := by
    funext x
    rw [smul_add, smul_comm]
  rw [hfun]
  refine (MatDeriv.of_hasDerivAt hd).congr (fun _ => rfl) ?_
  symm
  have hG : ∀ s ∈ Set.uIcc (0 : ℝ) 1,
      HasDerivAt (fun s : ℝ => V * Matrix.of (fun i j => (Vᴴ * D * V) i j * kernel lam τ s i j) * Vᴴ)
        (NormedSpace.exp (((1 - s : ℝ) : ℂ) • τ • A) * (τ • D) * NormedSpace.exp ((s : ℂ) • τ • A)) s := by
    intro s _
    have h1 : HasDerivAt (fun s : ℝ => Matrix.of (fun i j => (Vᴴ * D * V) i j * kernel lam τ s i j))
        (Matrix.of fun i j => (Vᴴ * D * V) i j *
          (Complex.exp (((1 - s : ℝ) : ℂ) * (τ * lam i)) * τ * Complex.exp ((s : ℂ) * (τ * lam j)))) s :=
      MatDeriv.hasDerivAt fun i j => (hasDerivAt_kernel lam hinj τ s i j).const_mul _
    have h2 := (h1.const_mul V).mul_const Vᴴ
    refine h2.congr_deriv ?_
    rw [smul_smul, smul_smul, ← h.exp_eq, ← h.exp_eq]
    have hm : (Matrix.of fun i j => (Vᴴ * D * V) i j *
          (Complex.exp (((1 - s : ℝ) : ℂ) * (τ * lam i)) * τ * Complex.exp ((s : ℂ) * (τ * lam j))))
        = Matrix.diagonal (fun j => Complex.exp ((((1 - s : ℝ) : ℂ) * τ) * lam j)) * (Vᴴ * (τ • D) * V) *
          Matrix.diagonal (fun j => Complex.exp (((s : ℂ) * τ) * lam j)) := by
      ext i j
      rw [Matrix.mul_diagonal, Matrix.diagonal_mul, Matrix.mul_smul, Matrix.smul_mul]
      simp only [Matrix.of_apply, Matrix.smul_apply, smul_eq_mul, mul_assoc]
      ring
    rw [hm]
    simp only [Matrix.mul_assoc]
  have hc : Continuous fun s : ℝ =>
      NormedSpace.exp (((1 - s : ℝ) : ℂ) • τ • A) * (τ • D) * NormedSpace.exp ((s : ℂ) • τ • A) := by
    have hexp : Continuous (NormedSpace.exp : Matrix n n ℂ → Matrix n n ℂ) := NormedSpace.exp_continuous
    fun_prop
  have hI := intervalIntegral.integral_eq_sub_of_hasDerivAt hG (hc.intervalIntegrable 0 1)
  rw [hI]
  have h0 : (Matrix.of fun i j => (Vᴴ * D * V) i j * kernel lam τ 0 i j) = (0 : Matrix n n ℂ) := by
    ext i j
    by_cases hij : i = j <;> simp [kernel, hij]
  rw [h0]
  simp

/-- The factors computed by the code, multiplied by `exp(τλ_i)`, are the kernel at `s = 1`. -/
theorem exp_mul_omega (lam : n → ℂ) (τ : ℂ) (i j : n) :
    Complex.exp (τ * lam i) * omega lam τ i j = kernel lam τ 1 i j := by
  by_cases hij : i = j
  · simp [omega, kernel, hij, mul_comm]
  · simp [omega, kernel, hij, mul_div_assoc]

end Lemmas

/-- The formula with the basis changes the right way round. -/
theorem c21_corrected_formula {A V : Matrix n n ℂ} {lam : n → ℂ} (h : UnitaryDecomp A lam V)
    (hinj : Function.Injective lam) (τ : ℂ) (D : Matrix n n ℂ) :
    MatDeriv (fun x : ℝ => NormedSpace.exp (τ • (A + (x : ℂ) • D)))
      (V * Matrix.diagonal (fun j => Complex.exp (τ * lam j)) * Vᴴ *
        (V * Matrix.of (fun i j => (Vᴴ * D * V) i j * omega lam τ i j) * Vᴴ)) 0 := by
  refine (h.matDeriv_exp hinj τ D).congr (fun _ => rfl) ?_
  have hV := conjTranspose_mul_unitary h.1
  have hm : (Matrix.of fun i j => (Vᴴ * D * V) i j * kernel lam τ 1 i j)
      = Matrix.diagonal (fun j => Complex.exp (τ * lam j)) *
        Matrix.of (fun i j => (Vᴴ * D * V) i j * omega lam τ i j) := by
    ext i j
    rw [Matrix.diagonal_mul, Matrix.of_apply, Matrix.of_apply, ← exp_mul_omega]
    ring
  rw [hm]
  calc _ = V * Matrix.diagonal (fun j => Complex.exp (τ * lam j)) * 1 *
        Matrix.of (fun i j => (Vᴴ * D * V) i j * omega lam τ i j) * Vᴴ := by
          simp only [Matrix.mul_assoc, Matrix.one_mul]
    _ = _ := by rw [← hV]; simp only [Matrix.mul_assoc]

/-- **C21**, part that holds: for distinct eigenvalues and if the matrix of eigenvectors returned by `eigh` is
Hermitian, `dexp(method='spectral', is_skew_hermitian=True)` is the directional derivative of the exponential.
Missing: other eigenvector matrices, for which the code is wrong (`c21_violated`). -/
theorem c21_derivative_partial (L : Lapack n) (hL : L.EighOk) (A D : Matrix n n ℂ) (hA : Aᴴ = -A) (τ : ℂ)
    (hinj : Function.Injective (L.eigh ((-Complex.I) • A)).1)
    (hV : ((L.eigh ((-Complex.I) • A)).2)ᴴ = (L.eigh ((-Complex.I) • A)).2) (c : Bool) (ε : ℝ) :
    ∃ p g, dexp L A D τ c .spectral true ε = .ok ⟨p, some g⟩ ∧
      MatDeriv (fun x : ℝ => NormedSpace.exp (τ • (A + (x : ℂ) • D))) g 0 := by
  have h := decomp_skew hL hA
  have hinj' : Function.Injective (decomp L A true).1 := by
    intro i j hij
    simp only [decomp, if_true] at hij
    exact hinj (Complex.ofReal_injective (mul_left_cancel₀ Complex.I_ne_zero hij))
  have hV' : ((decomp L A true).2)ᴴ = (decomp L A true).2 := hV
  refine ⟨if c then some (dexpDiagonalization L A D τ true).1 else none,
    dexpFormula (decomp L A true).1 (decomp L A true).2 τ D, ?_, ?_⟩
  · simp only [dexp, dexpDiagonalization, if_pos hinj']
  · refine (c21_corrected_formula h hinj' τ D).congr (fun _ => rfl) ?_
    simp only [dexpFormula, hV']

/-- A repeated eigenvalue makes the result NaN, although the derivative exists. -/
theorem c21_degenerate (L : Lapack n) (A D : Matrix n n ℂ) (τ : ℂ) (i j : n) (hij : i ≠ j)
    (h : (L.eigh ((-Complex.I) • A)).1 i = (L.eigh ((-Complex.I) • A)).1 j) (c : Bool) (ε : ℝ) :
    (∃ p, dexp L A D τ c .spectral true ε = .ok ⟨p, none⟩) ∧
      ∃ g, MatDeriv (fun x : ℝ => NormedSpace.exp (τ • (A + (x : ℂ) • D))) g 0 := by
  refine ⟨⟨if c then some (dexpDiagonalization L A D τ true).1 else none, ?_⟩, ?_⟩
  · have hni : ¬ Function.Injective (decomp L A true).1 := by
      intro hi
      apply hij
      apply hi
      simp only [decomp, if_true, h]
    simp only [dexp, dexpDiagonalization, if_neg hni]
  · refine ⟨_, (matDeriv_exp_line (τ • A) (τ • D)).congr (fun x => ?_) rfl⟩
    rw [smul_add, smul_comm]

/-! ### The violation of C21 -/

section Violation

/-- diag(2, 0, 1) -/
abbrev hDiag : Fin 3 → ℂ := ![2, 0, 1]
noncomputable abbrev aMat : Matrix (Fin 3) (Fin 3) ℂ := Matrix.diagonal fun i => Complex.I * hDiag i
abbrev dMat : Matrix (Fin 3) (Fin 3) ℂ := !![0, 1, 0; 1, 0, 0; 0, 0, 0]

theorem aMat_skew : aMatᴴ = -aMat := by
  ext i j
  fin_cases i <;> fin_cases j <;> simp [aMat, Matrix.conjTranspose_apply]

theorem aMat_herm : (-Complex.I) • aMat = Matrix.diagonal hDiag := by
  ext i j
  by_cases hij : i = j
  · subst hij
    simp only [Matrix.smul_apply, Matrix.diagonal_apply_eq, smul_eq_mul]
    rw [← mul_assoc]; simp
  · simp [hij]

/-- The structure of every sorted unitary eigenbasis of diag(2, 0, 1). -/
theorem eig_structure {mu : Fin 3 → ℝ} {V : Matrix (Fin 3) (Fin 3) ℂ}
    (h : UnitaryDecomp (Matrix.diagonal hDiag) (fun j => (mu j : ℂ)) V) (hmono : Monotone mu) :
    mu = ![0, 1, 2] := by
  have hV := conjTranspose_mul_unitary h.1
  have hent : ∀ i j, hDiag i * V i j = V i j * mu j := by
    intro i j
    have := congrFun (congrFun h.2 i) j
    rwa [Matrix.diagonal_mul, Matrix.mul_diagonal] at this
  have horth : ∀ i j, conj (V 0 i) * V 0 j + conj (V 1 i) * V 1 j + conj (V 2 i) * V 2 j = if i = j then 1 else 0 := by
    intro i j
    have := congrFun (congrFun hV i) j
    rw [Matrix.mul_apply, Fin.sum_univ_three, Matrix.one_apply] at this
    exact this
  -- a column is zero except where the eigenvalue fits
  have hz : ∀ i j, hDiag i ≠ mu j → V i j = 0 := by
    intro i j hne
    have : (hDiag i - mu j) * V i j = 0 := by linear_combination hent i j
    exact (mul_eq_zero.mp this).resolve_left (sub_ne_zero.mpr hne)
  have hval : ∀ j, mu j = 2 ∨ mu j = 0 ∨ mu j = 1 := by
    intro j
    by_contra hcon
    push Not at hcon
    obtain ⟨h2, h0, h1⟩ := hcon
    have a0 := hz 0 j (by simpa [hDiag] using fun h : (2 : ℂ) = mu j => h2 (by exact_mod_cast h.symm))
    have a1 := hz 1 j (by simpa [hDiag] using fun h : (0 : ℂ) = mu j => h0 (by exact_mod_cast h.symm))
    have a2 := hz 2 j (by simpa [hDiag] using fun h : (1 : ℂ) = mu j => h1 (by exact_mod_cast h.symm))
    have := horth j j
    rw [a0, a1, a2] at this
    simp at this
  have hinj : ∀ j k, j ≠ k → mu j ≠ mu k := by
    intro j k hjk he
    have ho := horth j k
    have hj := horth j j
    have hk := horth k k
    rw [if_neg hjk] at ho
    rw [if_pos rfl] at hj hk
    have n20 : (2 : ℂ) ≠ 0 := two_ne_zero
    have n21 : (2 : ℂ) ≠ 1 := by norm_num
    have n01 : (0 : ℂ) ≠ 1 := zero_ne_one
    have key : ∀ a b : ℂ, conj a * b = 0 → conj a * a = 1 → conj b * b = 1 → False := by
      intro a b h1 h2 h3
      rcases mul_eq_zero.mp h1 with h | h
      · rw [h] at h2; simp at h2
      · rw [h] at h3; simp at h3
    rcases hval j with hv | hv | hv
    · have a1 := hz 1 j (by rw [hv]; simp [hDiag])
      have a2 := hz 2 j (by rw [hv]; simp [hDiag])
      have b1 := hz 1 k (by rw [← he, hv]; simp [hDiag])
      have b2 := hz 2 k (by rw [← he, hv]; simp [hDiag])
      rw [a1, a2] at ho hj
      rw [b1, b2] at hk
      simp only [map_zero, zero_mul, add_zero] at ho hj hk
      exact key _ _ ho hj hk
    · have a1 := hz 0 j (by rw [hv]; simp [hDiag])
      have a2 := hz 2 j (by rw [hv]; simp [hDiag])
      have b1 := hz 0 k (by rw [← he, hv]; simp [hDiag])
      have b2 := hz 2 k (by rw [← he, hv]; simp [hDiag])
      rw [a1, a2] at ho hj
      rw [b1, b2] at hk
      simp only [map_zero, zero_mul, add_zero, zero_add] at ho hj hk
      exact key _ _ ho hj hk
    · have a1 := hz 0 j (by rw [hv]; simp [hDiag])
      have a2 := hz 1 j (by rw [hv]; simp [hDiag])
      have b1 := hz 0 k (by rw [← he, hv]; simp [hDiag])
      have b2 := hz 1 k (by rw [← he, hv]; simp [hDiag])
      rw [a1, a2] at ho hj
      rw [b1, b2] at hk
      simp only [map_zero, zero_mul, zero_add] at ho hj hk
      exact key _ _ ho hj hk
  have m01 := hmono (show (0 : Fin 3) ≤ 1 by decide)
  have m12 := hmono (show (1 : Fin 3) ≤ 2 by decide)
  have n01 := hinj 0 1 (by decide)
  have n12 := hinj 1 2 (by decide)
  have l01 := lt_of_le_of_ne m01 n01
  have l12 := lt_of_le_of_ne m12 n12
  have e : mu 0 = 0 ∧ mu 1 = 1 ∧ mu 2 = 2 := by
    rcases hval 0 with h0 | h0 | h0 <;> rcases hval 1 with h1 | h1 | h1 <;> rcases hval 2 with h2 | h2 | h2 <;>
      first | exact ⟨h0, h1, h2⟩ | (exfalso; linarith)
  ext j
  fin_cases j
  · exact e.1
  · exact e.2.1
  · exact e.2.2

/-- **C21** is violated: for `A = diag(2i, 0, i)`, `tau = π` and the direction `D = E₀₁ + E₁₀` the value
returned by `dexp(method='spectral', is_skew_hermitian=True)` is not the derivative, whatever eigenvectors
`eigh` returns (with the eigenvalues in ascending order, as documented by numpy). -/
theorem c21_violated (L : Lapack (Fin 3)) (hL : L.EighOk)
    (hasc : ∀ H : Matrix (Fin 3) (Fin 3) ℂ, H.IsHermitian → Monotone (L.eigh H).1) (c : Bool) (ε : ℝ) :
    ∃ A D : Matrix (Fin 3) (Fin 3) ℂ, Aᴴ = -A ∧ ∃ (τ : ℝ) (p : Option _) (g : Matrix (Fin 3) (Fin 3) ℂ),
      dexp L A D τ c .spectral true ε = .ok ⟨p, some g⟩ ∧
      ¬ MatDeriv (fun x : ℝ => NormedSpace.exp ((τ : ℂ) • (A + (x : ℂ) • D))) g 0 := by
  refine ⟨aMat, dMat, aMat_skew, Real.pi, ?_⟩
  have h := decomp_skew hL aMat_skew
  have hH : (Matrix.diagonal hDiag : Matrix (Fin 3) (Fin 3) ℂ).IsHermitian := by
    rw [Matrix.IsHermitian, Matrix.diagonal_conjTranspose]
    congr 1
    ext i; fin_cases i <;> simp
  have hmu := eig_structure (hL _ hH) (hasc _ hH)
  have hlam : (decomp L aMat true).1 = ![0, Complex.I, 2 * Complex.I] := by
    simp only [decomp, if_true]
    rw [aMat_herm, hmu]
    ext j; fin_cases j <;> simp [mul_comm]
  have hinj : Function.Injective (decomp L aMat true).1 := by
    have hI := Complex.I_ne_zero
    have h2 : (2 : ℂ) * Complex.I ≠ Complex.I := by
      intro h; apply hI; linear_combination h
    rw [hlam]
    clear hlam hmu h hH hL hasc
    intro i j hij
    fin_cases i <;> fin_cases j <;> simp_all [eq_comm]
  refine ⟨if c then some (dexpDiagonalization L aMat dMat Real.pi true).1 else none,
    dexpFormula (decomp L aMat true).1 (decomp L aMat true).2 Real.pi dMat, ?_, ?_⟩
  · simp only [dexp, dexpDiagonalization, if_pos hinj]
  · intro hd
    have hu := hd.unique (c21_corrected_formula h hinj Real.pi dMat)
    have hent : ∀ i j, aMat i i * (decomp L aMat true).2 i j = (decomp L aMat true).2 i j * (decomp L aMat true).1 j := by
      intro i j
      have := congrFun (congrFun h.2 i) j
      rw [Matrix.diagonal_mul, Matrix.mul_diagonal] at this
      simpa using this
    have hV := conjTranspose_mul_unitary h.1
    generalize (decomp L aMat true).2 = V at *
    rw [hlam] at hent hu
    clear hlam hinj hmu h hd
    have hI := Complex.I_ne_zero
    have hz : ∀ i j, aMat i i ≠ (![0, Complex.I, 2 * Complex.I] : Fin 3 → ℂ) j → V i j = 0 := by
      intro i j hne
      have : (aMat i i - (![0, Complex.I, 2 * Complex.I] : Fin 3 → ℂ) j) * V i j = 0 := by
        linear_combination hent i j
      exact (mul_eq_zero.mp this).resolve_left (sub_ne_zero.mpr hne)
    have h2 : (2 : ℂ) * Complex.I ≠ Complex.I := by
      intro h; apply hI; linear_combination h
    have h2' : Complex.I * 2 ≠ Complex.I := by
      intro h; apply hI; linear_combination h
    have z00 : V 0 0 = 0 := hz 0 0 (by simp [aMat, hDiag])
    have z20 : V 2 0 = 0 := hz 2 0 (by simp [aMat, hDiag])
    have z01 : V 0 1 = 0 := hz 0 1 (by simpa [aMat, hDiag] using h2')
    have z11 : V 1 1 = 0 := hz 1 1 (by simp [aMat, hDiag, eq_comm])
    have z12 : V 1 2 = 0 := hz 1 2 (by simp [aMat, hDiag, eq_comm])
    have z22 : V 2 2 = 0 := hz 2 2 (by simp [aMat, hDiag])
    have o00 := congrFun (congrFun hV 0) 0
    have o11 := congrFun (congrFun hV 1) 1
    have o22 := congrFun (congrFun hV 2) 2
    simp only [Matrix.mul_apply, Fin.sum_univ_three, Matrix.conjTranspose_apply, z00, z20, z01, z11, z12, z22,
      Matrix.one_apply_eq, star_zero, mul_zero, zero_add, add_zero] at o00 o11 o22
    have e01 := congrFun (congrFun hu 0) 1
    have hw12 : omega (![0, Complex.I, 2 * Complex.I] : Fin 3 → ℂ) Real.pi 1 2 = 2 * Complex.I := by
      simp only [omega, Matrix.of_apply]
      rw [if_neg (by decide)]
      have : ((![0, Complex.I, 2 * Complex.I] : Fin 3 → ℂ) 2 - (![0, Complex.I, 2 * Complex.I] : Fin 3 → ℂ) 1) = Complex.I := by
        simp; ring
      rw [this, mul_comm Complex.I, Complex.exp_pi_mul_I, div_eq_iff hI]
      have := Complex.I_mul_I
      linear_combination (-2) * this
    have hw20 : omega (![0, Complex.I, 2 * Complex.I] : Fin 3 → ℂ) Real.pi 2 0 = 0 := by
      simp only [omega, Matrix.of_apply]
      rw [if_neg (by decide)]
      have : ((![0, Complex.I, 2 * Complex.I] : Fin 3 → ℂ) 0 - (![0, Complex.I, 2 * Complex.I] : Fin 3 → ℂ) 2) * Real.pi
          = -(2 * Real.pi * Complex.I) := by
        simp; ring
      rw [this, Complex.exp_neg, Complex.exp_two_pi_mul_I]
      simp
    have hE2 : Complex.exp ((Real.pi : ℂ) * (2 * Complex.I)) = 1 := by
      rw [show (Real.pi : ℂ) * (2 * Complex.I) = 2 * Real.pi * Complex.I by ring, Complex.exp_two_pi_mul_I]
    simp [dexpFormula, Matrix.mul_apply, Fin.sum_univ_three, Matrix.conjTranspose_apply, z00, z20, z01, z11, z12, z22,
      Matrix.diagonal_apply, Fin.ext_iff, hw12, hw20, hE2, dMat] at e01
    rcases e01 with h | h | h
    · rw [h] at o22; simp at o22
    · rw [h] at o00; simp at o00
    · rw [h] at o11; simp at o11

/-- Non-vacuity of `c21_derivative_partial`: a decomposition with distinct eigenvalues and a Hermitian matrix of
eigenvectors that is not diagonal (a reflection with rational entries). -/
example : UnitaryDecomp (!![-7 / 25, 24 / 25; 24 / 25, 7 / 25] : Matrix (Fin 2) (Fin 2) ℂ) ![-1, 1]
      !![4 / 5, 3 / 5; -3 / 5, 4 / 5] ∧
    UnitaryDecomp (!![7 / 25, 24 / 25; 24 / 25, -7 / 25] : Matrix (Fin 2) (Fin 2) ℂ) ![1, -1]
      !![4 / 5, 3 / 5; 3 / 5, -4 / 5] ∧
    (!![4 / 5, 3 / 5; 3 / 5, -4 / 5] : Matrix (Fin 2) (Fin 2) ℂ)ᴴ = !![4 / 5, 3 / 5; 3 / 5, -4 / 5] := by
  refine ⟨⟨?_, ?_⟩, ⟨?_, ?_⟩, ?_⟩
  · rw [Matrix.mem_unitaryGroup_iff]
    ext i j; fin_cases i <;> fin_cases j <;>
      simp [Matrix.mul_apply, Fin.sum_univ_two, Matrix.star_eq_conjTranspose, Matrix.conjTranspose_apply, Complex.conj_ofNat] <;> norm_num
  · ext i j; fin_cases i <;> fin_cases j <;> simp [Matrix.mul_apply, Fin.sum_univ_two] <;> norm_num
  · rw [Matrix.mem_unitaryGroup_iff]
    ext i j; fin_cases i <;> fin_cases j <;>
      simp [Matrix.mul_apply, Fin.sum_univ_two, Matrix.star_eq_conjTranspose, Matrix.conjTranspose_apply, Complex.conj_ofNat] <;> norm_num
  · ext i j; fin_cases i <;> fin_cases j <;> simp [Matrix.mul_apply, Fin.sum_univ_two] <;> norm_num
  · ext i j; fin_cases i <;> fin_cases j <;> simp [Matrix.conjTranspose_apply, Complex.conj_ofNat]

end Violation
end Verif.Operator
