import Verif.Cost.OpenLeak

/-!
# C181: what dissipation has destroyed no pulse brings back

Propagators of the `LindbladSolver` (solver_algorithms.py:1760-2160) for two pulses one after the other.
-/

namespace Verif.Cost
open Verif Verif.Operator Verif.Solver Matrix
open scoped Kronecker ComplexOrder

section
variable {n : Type} [Fintype n] [DecidableEq n]

/-! ## Specification -/

/-- No yes-or-no measurement `M` gives the answer yes with probabilities which differ by more than `δ`. -/
def Similar (δ : ℝ) (ρ σ : Matrix n n ℂ) : Prop :=
  ∀ M : Matrix n n ℂ, M.PosSemidef → (1 - M).PosSemidef → |((M * ρ).trace - (M * σ).trace).re| ≤ δ

/-- A density matrix. -/
def Density (ρ : Matrix n n ℂ) : Prop := ρ.PosSemidef ∧ ρ.trace = 1

/-! ## Lemmas -/

/-- The measurement before the evolution which has the same statistics. -/
theorem trace_kraus {m : Nat} (K : Fin m → Matrix n n ℂ) (M ρ : Matrix n n ℂ) :
    (M * kraus K ρ).trace = ((∑ r, (K r)ᴴ * M * K r) * ρ).trace := by
  unfold kraus
  rw [Matrix.mul_sum, Matrix.sum_mul, Matrix.trace_sum, Matrix.trace_sum]
  refine Finset.sum_congr rfl fun r _ => ?_
  rw [← Matrix.mul_assoc, Matrix.trace_mul_comm, ← Matrix.mul_assoc, ← Matrix.mul_assoc]

theorem similar_kraus {m : Nat} (K : Fin m → Matrix n n ℂ) (hK : ∑ r, (K r)ᴴ * K r = 1) {δ : ℝ} {ρ σ : Matrix n n ℂ}
    (h : Similar δ ρ σ) : Similar δ (kraus K ρ) (kraus K σ) := by
  intro M h1 h2
  rw [trace_kraus, trace_kraus]
  refine h _ (Matrix.posSemidef_sum _ fun r _ => h1.conjTranspose_mul_mul_same (K r)) ?_
  have e : 1 - ∑ r, (K r)ᴴ * M * K r = ∑ r, (K r)ᴴ * (1 - M) * K r := by
    simp only [Matrix.mul_sub, Matrix.sub_mul, Matrix.mul_one, Finset.sum_sub_distrib, hK]
  rw [e]
  exact Matrix.posSemidef_sum _ fun r _ => h2.conjTranspose_mul_mul_same (K r)

theorem pure_effect {ψ : Matrix n (Fin 1) ℂ} (h : ψᴴ * ψ = 1) : (1 - ψ * ψᴴ).PosSemidef := by
  obtain ⟨h1, h2⟩ := pure_density ψ h
  have := trace_sub_posSemidef h1
  rwa [h2, one_smul] at this

/-- The probabilities of two orthogonal states. -/
theorem orthogonal_sum {ψ φ : Matrix n (Fin 1) ℂ} (hψ : ψᴴ * ψ = 1) (hφ : φᴴ * φ = 1) (ho : ψᴴ * φ = 0) {ρ : Matrix n n ℂ} (h : Density ρ) :
    ((ψ * ψᴴ * ρ).trace).re + ((φ * φᴴ * ρ).trace).re ≤ 1 := by
  have ho' : φᴴ * ψ = 0 := by
    have := congrArg Matrix.conjTranspose ho
    rwa [Matrix.conjTranspose_mul, Matrix.conjTranspose_conjTranspose, Matrix.conjTranspose_zero] at this
  set X : Matrix n n ℂ := 1 - ψ * ψᴴ - φ * φᴴ with hX
  have hXc : Xᴴ = X := by
    rw [hX]
    simp [Matrix.conjTranspose_sub, Matrix.conjTranspose_mul]
  have a1 : ψ * ψᴴ * (ψ * ψᴴ) = ψ * ψᴴ := by rw [Matrix.mul_assoc, ← Matrix.mul_assoc ψᴴ, hψ, Matrix.one_mul]
  have a2 : φ * φᴴ * (φ * φᴴ) = φ * φᴴ := by rw [Matrix.mul_assoc, ← Matrix.mul_assoc φᴴ, hφ, Matrix.one_mul]
  have a3 : ψ * ψᴴ * (φ * φᴴ) = 0 := by rw [Matrix.mul_assoc, ← Matrix.mul_assoc ψᴴ, ho, Matrix.zero_mul, Matrix.mul_zero]
  have a4 : φ * φᴴ * (ψ * ψᴴ) = 0 := by rw [Matrix.mul_assoc, ← Matrix.mul_assoc φᴴ, ho', Matrix.zero_mul, Matrix.mul_zero]
  have hXX : X * X = X := by
    rw [hX]
    simp only [Matrix.sub_mul, Matrix.mul_sub, Matrix.one_mul, Matrix.mul_one, a1, a2, a3, a4]
    abel
  have hp := (h.1.mul_mul_conjTranspose_same X).trace_nonneg
  rw [hXc, Matrix.trace_mul_comm, ← Matrix.mul_assoc, hXX, hX, Matrix.sub_mul, Matrix.sub_mul, Matrix.trace_sub, Matrix.trace_sub,
    Matrix.one_mul, h.2] at hp
  have := (Complex.le_def.mp hp).1
  simp only [Complex.zero_re, Complex.sub_re, Complex.one_re] at this
  linarith

/-! ## The property -/

/-- **C181** Two initial states do not become easier to distinguish while another pulse `S₂` is played after `S₁`. -/
theorem c181_distinguish (p : LPar n) (Ls : List (Matrix n n ℂ)) (h : p.Local Ls) (hm : p.method = .frechet) (hE : p.L.ExpmOk)
    (hi : p.init = 1) (hc : ∀ H ∈ p.ctrl, H.IsHermitian) (S₁ S₂ : List (OpenStep n)) (h₁ : Playable p S₁) (h₂ : Playable p S₂)
    (ρ σ : Matrix n n ℂ) (hρ : Density ρ) (hσ : Density σ) :
    ∃ (f₁ f : List (Sup n)) (E₁ E : Sup n) (ρ₁ σ₁ ρ₂ σ₂ : Matrix n n ℂ),
      openRun p S₁ = .ok f₁ ∧ f₁.getLast? = some E₁ ∧ openRun p (S₁ ++ S₂) = .ok f ∧ f.getLast? = some E ∧
      E₁ *ᵥ vec ρ = vec ρ₁ ∧ E₁ *ᵥ vec σ = vec σ₁ ∧ E *ᵥ vec ρ = vec ρ₂ ∧ E *ᵥ vec σ = vec σ₂ ∧
      Density ρ₁ ∧ Density σ₁ ∧ Density ρ₂ ∧ Density σ₂ ∧
      (∀ δ, Similar δ ρ σ → Similar δ ρ₁ σ₁) ∧ ∀ δ, Similar δ ρ₁ σ₁ → Similar δ ρ₂ σ₂ := by
  obtain ⟨f₁, m₁, A, a1, a2, a3⟩ := h₁.kraus h hm hE hi hc
  obtain ⟨f₂, m₂, B, b1, b2, b3⟩ := h₂.kraus h hm hE hi hc
  obtain ⟨f₁', f₂', f, E₁, E₂, k1, k2, k3, k4, k5, k6⟩ := c128_product p Ls h hm hE hi S₁ S₂ h₁.nonempty h₂.nonempty (h₁.append h₂).cols
  rw [a1] at k1
  cases k1
  rw [b1] at k2
  cases k2
  rw [a2] at k4
  cases k4
  rw [b2] at k5
  cases k5
  have r1 := kraus_density A a3 ρ hρ.1 hρ.2
  have s1 := kraus_density A a3 σ hσ.1 hσ.2
  exact ⟨f₁, f, _, _, kraus A ρ, kraus A σ, kraus B (kraus A ρ), kraus B (kraus A σ), a1, a2, k3, k6, kraus_action A ρ, kraus_action A σ,
    kraus_two A B ρ, kraus_two A B σ, r1, s1, kraus_density B b3 _ r1.1 r1.2, kraus_density B b3 _ s1.1 s1.2,
    fun _ => similar_kraus A a3, fun _ => similar_kraus B b3⟩

/-- **C181** If two initial states have become similar up to `δ`, every continuation `S₂` which is meant to turn them into two orthogonal
states fails: the two error probabilities add up to at least `1 - δ`. -/
theorem c181_lost (p : LPar n) (Ls : List (Matrix n n ℂ)) (h : p.Local Ls) (hm : p.method = .frechet) (hE : p.L.ExpmOk)
    (hi : p.init = 1) (hc : ∀ H ∈ p.ctrl, H.IsHermitian) (S₁ S₂ : List (OpenStep n)) (h₁ : Playable p S₁) (h₂ : Playable p S₂)
    (ρ σ : Matrix n n ℂ) (hρ : Density ρ) (hσ : Density σ) (ψ φ : Matrix n (Fin 1) ℂ) (hψ : ψᴴ * ψ = 1) (hφ : φᴴ * φ = 1)
    (ho : ψᴴ * φ = 0) :
    ∃ (f₁ f : List (Sup n)) (E₁ E : Sup n) (ρ₁ σ₁ ρ₂ σ₂ : Matrix n n ℂ),
      openRun p S₁ = .ok f₁ ∧ f₁.getLast? = some E₁ ∧ openRun p (S₁ ++ S₂) = .ok f ∧ f.getLast? = some E ∧
      E₁ *ᵥ vec ρ = vec ρ₁ ∧ E₁ *ᵥ vec σ = vec σ₁ ∧ E *ᵥ vec ρ = vec ρ₂ ∧ E *ᵥ vec σ = vec σ₂ ∧
      ∀ δ, Similar δ ρ₁ σ₁ → 1 - δ ≤ (1 - ((ψ * ψᴴ * ρ₂).trace).re) + (1 - ((φ * φᴴ * σ₂).trace).re) := by
  obtain ⟨f₁, f, E₁, E, ρ₁, σ₁, ρ₂, σ₂, e1, e2, e3, e4, e5, e6, e7, e8, -, -, -, d4, -, hs⟩ :=
    c181_distinguish p Ls h hm hE hi hc S₁ S₂ h₁ h₂ ρ σ hρ hσ
  refine ⟨f₁, f, E₁, E, ρ₁, σ₁, ρ₂, σ₂, e1, e2, e3, e4, e5, e6, e7, e8, fun δ hδ => ?_⟩
  have k := hs δ hδ (ψ * ψᴴ) (pure_density ψ hψ).1 (pure_effect hψ)
  have o := orthogonal_sum hψ hφ ho d4
  rw [Complex.sub_re] at k
  have := (abs_le.mp k).2
  linarith

/-! ## Concrete cases -/

namespace Ex181

/-- The ground state and the excited state. -/
def down : Matrix (Fin 2) (Fin 1) ℂ := !![1; 0]
def up : Matrix (Fin 2) (Fin 1) ℂ := !![0; 1]

/-- After cooling the qubit of C151 for the time one its two states can be told apart
with an advantage of at most `exp(-1)`: recovering them by heating has a total error of at least `1 - exp(-1)`. -/
example : ∃ (L : Lapack (Fin 2 × Fin 2)) (f : List (Sup (Fin 2))) (E : Sup (Fin 2)) (ρ₂ σ₂ : Matrix (Fin 2) (Fin 2) ℂ),
    openRun (Ex151.bath L) ((Ex151.idle 1 0).steps ++ (Ex151.idle 0 2).steps) = .ok f ∧ f.getLast? = some E ∧
    E *ᵥ Matrix.vec !![1, 0; 0, 0] = Matrix.vec ρ₂ ∧ E *ᵥ Matrix.vec !![0, 0; 0, 1] = Matrix.vec σ₂ ∧
    1 - Real.exp (-1) ≤ (1 - ((down * downᴴ * ρ₂).trace).re) +
      (1 - ((up * upᴴ * σ₂).trace).re) := by
  obtain ⟨L, -, -, hE, -⟩ := lapack_exists (Fin 2 × Fin 2)
  have hd : ∀ a b : ℝ, 0 ≤ a → 0 ≤ b → a + b = 1 → Density (!![(a : ℂ), 0; 0, (b : ℂ)] : Matrix (Fin 2) (Fin 2) ℂ) := by
    intro a b ha hb hab
    have : (!![(a : ℂ), 0; 0, (b : ℂ)] : Matrix (Fin 2) (Fin 2) ℂ) = Matrix.diagonal ![(a : ℂ), (b : ℂ)] := by
      ext i j; fin_cases i <;> fin_cases j <;> simp
    refine ⟨?_, ?_⟩
    · rw [this]
      refine Matrix.PosSemidef.diagonal fun i => ?_
      fin_cases i
      · exact Complex.zero_le_real.mpr ha
      · exact Complex.zero_le_real.mpr hb
    · rw [this, Matrix.trace_diagonal, Fin.sum_univ_two]
      show (a : ℂ) + (b : ℂ) = 1
      exact_mod_cast hab
  have h0 : Density (!![1, 0; 0, 0] : Matrix (Fin 2) (Fin 2) ℂ) := by simpa using hd 1 0 zero_le_one le_rfl (by norm_num)
  have h1 : Density (!![0, 0; 0, 1] : Matrix (Fin 2) (Fin 2) ℂ) := by simpa using hd 0 1 le_rfl zero_le_one (by norm_num)
  obtain ⟨f₁, f, E₁, E, ρ₁, σ₁, ρ₂, σ₂, e1, e2, e3, e4, e5, e6, e7, e8, e9⟩ := c181_lost (Ex151.bath L) _ (Ex151.bath_local L) rfl hE rfl
    (by simp [Ex151.bath]) (Ex151.idle 1 0).steps (Ex151.idle 0 2).steps (Ex179.idle_playable L zero_le_one le_rfl)
    (Ex179.idle_playable L le_rfl zero_le_two) _ _ h0 h1 down up
    (by ext i j; fin_cases i; fin_cases j; simp [down, up, Matrix.mul_apply, Fin.sum_univ_two])
    (by ext i j; fin_cases i; fin_cases j; simp [down, up, Matrix.mul_apply, Fin.sum_univ_two])
    (by ext i j; fin_cases i; fin_cases j; simp [down, up, Matrix.mul_apply, Fin.sum_univ_two])
  refine ⟨L, f, E, ρ₂, σ₂, e3, e4, e7, e8, e9 _ ?_⟩
  obtain ⟨f', k1, k2⟩ := Ex151.final_one L hE 1 0
  rw [e1] at k1
  cases k1
  rw [e2] at k2
  cases k2
  have c0 := Ex151.cool L 1
  have c1 := Ex151.cool L 0
  simp only [sub_self, zero_mul, sub_zero, one_mul] at c0 c1
  have r1 : ρ₁ = !![1, 0; 0, 0] := Matrix.vec_inj.mp (e5.symm.trans c0)
  have s1 : σ₁ = !![1 - Complex.exp (-1), 0; 0, Complex.exp (-1)] := Matrix.vec_inj.mp (e6.symm.trans c1)
  intro M hM hM'
  have hx : Complex.exp (-1) = ((Real.exp (-1) : ℝ) : ℂ) := by
    rw [Complex.ofReal_exp]
    simp
  have d0 := (Complex.le_def.mp (hM.diag_nonneg (i := 0))).1
  have d1 := (Complex.le_def.mp (hM.diag_nonneg (i := 1))).1
  have d2 := (Complex.le_def.mp (hM'.diag_nonneg (i := 0))).1
  have d3 := (Complex.le_def.mp (hM'.diag_nonneg (i := 1))).1
  simp only [Complex.zero_re, Matrix.sub_apply, Matrix.one_apply_eq, Complex.sub_re, Complex.one_re] at d0 d1 d2 d3
  have e : ((M * ρ₁).trace - (M * σ₁).trace).re = Real.exp (-1) * ((M 0 0).re - (M 1 1).re) := by
    rw [r1, s1, hx]
    simp only [Matrix.trace, Matrix.diag_apply, Matrix.mul_apply, Fin.sum_univ_two, Matrix.of_apply, Matrix.cons_val_zero, Matrix.cons_val_one,
      Matrix.cons_val', Matrix.cons_val_fin_one, Complex.sub_re, Complex.add_re, Complex.mul_re, Complex.one_re, Complex.zero_re,
      Complex.zero_im, Complex.one_im, Complex.ofReal_re, Complex.ofReal_im, Complex.sub_im]
    ring
  rw [e, abs_mul, abs_of_pos (Real.exp_pos _)]
  have : |(M 0 0).re - (M 1 1).re| ≤ 1 := by rw [abs_le]; constructor <;> linarith
  nlinarith [Real.exp_pos (-1)]

end Ex181

end
end Verif.Cost
