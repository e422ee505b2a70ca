import Verif.Cost.OpenSequence

/-!
# C179: leakage of open systems, for every initial state and for sequences of pulses

`LeakageLiouville` (cost_functions.py:1851-1865, `input_unitary=False`) on a `LindbladSolver` reports the leakage of the fully mixed
computational state. Here: what it says about the other states of the computational subspace, and about pulses played one after the other.
-/

namespace Verif.Cost
open Verif Verif.Operator Verif.Solver Matrix
open scoped Kronecker ComplexOrder

section
variable {n : Type} [Fintype n] [DecidableEq n]

/-! ## Specification -/

/-- The population outside of the states `l`. -/
noncomputable def outside (l : List n) (ρ : Matrix n n ℂ) : ℝ := ∑ i, if i ∈ l then 0 else (ρ i i).re

/-- A density matrix of the subspace spanned by the states `l`. -/
structure StateOn (l : List n) (ρ : Matrix n n ℂ) : Prop where
  pos : ρ.PosSemidef
  trace : ρ.trace = 1
  support : ∀ i j, i ∉ l → ρ i j = 0

/-- A pulse which a solver with the controls and the dissipation of `p` can play: at least one time step, one amplitude for each control,
Hermitian drift, durations and rates which are not negative. -/
structure Playable (p : LPar n) (S : List (OpenStep n)) : Prop where
  nonempty : S ≠ []
  cols : ∀ s ∈ S, s.u.length = p.ctrl.length
  hermitian : ∀ s ∈ S, s.H.IsHermitian
  durations : ∀ s ∈ S, 0 ≤ s.τ
  rates : ∀ f, p.diss.prefactor = some f → ∀ s ∈ S, ∀ row ∈ f [s.u] [s.x], ∀ w ∈ row, 0 ≤ w

/-- What `LeakageLiouville.costs()` returns for a pulse. -/
noncomputable def openLeak (p : LPar n) (l : List n) (S : List (OpenStep n)) : Except PyErr ℝ := openRun p S >>= leakLiouvilleSup l

/-! ## Lemmas -/

theorem trace_sub_posSemidef {ρ : Matrix n n ℂ} (h : ρ.PosSemidef) : (ρ.trace • (1 : Matrix n n ℂ) - ρ).PosSemidef := by
  have hs := h.1.spectral_theorem
  rw [Unitary.conjStarAlgAut_apply] at hs
  set U : Matrix n n ℂ := (h.1.eigenvectorUnitary : Matrix n n ℂ)
  have hU : U * star U = 1 := Unitary.coe_mul_star_self _
  have key : ρ.trace • (1 : Matrix n n ℂ) - ρ =
      U * Matrix.diagonal (fun i => ((∑ j, h.1.eigenvalues j - h.1.eigenvalues i : ℝ) : ℂ)) * Uᴴ := by
    have e : Matrix.diagonal (fun i => ((∑ j, h.1.eigenvalues j - h.1.eigenvalues i : ℝ) : ℂ)) =
        ρ.trace • (1 : Matrix n n ℂ) - Matrix.diagonal (RCLike.ofReal ∘ h.1.eigenvalues) := by
      rw [h.1.trace_eq_sum_eigenvalues, Matrix.smul_one_eq_diagonal, Matrix.diagonal_sub]
      congr 1
      funext i
      simp
    rw [e, Matrix.mul_sub, Matrix.sub_mul, Matrix.mul_smul, Matrix.mul_one, Matrix.smul_mul, ← Matrix.star_eq_conjTranspose, hU, ← hs]
  rw [key]
  refine Matrix.PosSemidef.mul_mul_conjTranspose_same (Matrix.PosSemidef.diagonal fun i => ?_) U
  have : h.1.eigenvalues i ≤ ∑ j, h.1.eigenvalues j := Finset.single_le_sum (fun j _ => h.eigenvalues_nonneg j) (Finset.mem_univ i)
  rw [Pi.zero_apply]
  exact Complex.zero_le_real.mpr (sub_nonneg.mpr this)

/-- The evolution with Kraus operators `K`. -/
noncomputable def kraus {m : Nat} (K : Fin m → Matrix n n ℂ) (ρ : Matrix n n ℂ) : Matrix n n ℂ := ∑ r, K r * ρ * (K r)ᴴ

theorem kraus_pos {m : Nat} (K : Fin m → Matrix n n ℂ) {ρ : Matrix n n ℂ} (h : ρ.PosSemidef) : (kraus K ρ).PosSemidef :=
  Matrix.posSemidef_sum _ fun r _ => h.mul_mul_conjTranspose_same (K r)

theorem kraus_add {m : Nat} (K : Fin m → Matrix n n ℂ) (ρ σ : Matrix n n ℂ) : kraus K (ρ + σ) = kraus K ρ + kraus K σ := by
  simp [kraus, Matrix.mul_add, Matrix.add_mul, Finset.sum_add_distrib]

theorem kraus_smul {m : Nat} (K : Fin m → Matrix n n ℂ) (a : ℂ) (ρ : Matrix n n ℂ) : kraus K (a • ρ) = a • kraus K ρ := by
  simp [kraus, Finset.smul_sum]

theorem outside_add (l : List n) (ρ σ : Matrix n n ℂ) : outside l (ρ + σ) = outside l ρ + outside l σ := by
  unfold outside
  rw [← Finset.sum_add_distrib]
  refine Finset.sum_congr rfl fun i _ => ?_
  split <;> simp

theorem outside_smul (l : List n) (a : ℝ) (ρ : Matrix n n ℂ) : outside l ((a : ℂ) • ρ) = a * outside l ρ := by
  unfold outside
  rw [Finset.mul_sum]
  refine Finset.sum_congr rfl fun i _ => ?_
  split <;> simp

theorem outside_nonneg (l : List n) {ρ : Matrix n n ℂ} (h : ρ.PosSemidef) : 0 ≤ outside l ρ :=
  Finset.sum_nonneg fun i _ => by
    split
    · exact le_rfl
    · exact (Complex.le_def.mp h.diag_nonneg).1

theorem outside_le_trace (l : List n) {ρ : Matrix n n ℂ} (h : ρ.PosSemidef) : outside l ρ ≤ ρ.trace.re := by
  rw [Matrix.trace, Complex.re_sum]
  refine Finset.sum_le_sum fun i _ => ?_
  split
  · exact (Complex.le_def.mp h.diag_nonneg).1
  · exact le_rfl

/-- More population before means more leakage after. -/
theorem outside_mono {m : Nat} (l : List n) (K : Fin m → Matrix n n ℂ) {ρ σ : Matrix n n ℂ} (h : (σ - ρ).PosSemidef) :
    outside l (kraus K ρ) ≤ outside l (kraus K σ) := by
  have e : kraus K σ = kraus K ρ + kraus K (σ - ρ) := by rw [← kraus_add, add_sub_cancel]
  rw [e, outside_add]
  linarith [outside_nonneg l (kraus_pos K h)]

/-- The projector on the states `l`. -/
noncomputable def proj (l : List n) : Matrix n n ℂ := Matrix.diagonal fun i => if i ∈ l then 1 else 0

theorem proj_conj (l : List n) : (proj l)ᴴ = proj l := by
  unfold proj
  rw [Matrix.diagonal_conjTranspose]
  congr 1
  funext i
  by_cases h : i ∈ l <;> simp [h]

theorem proj_sq (l : List n) : proj l * proj l = proj l := by
  unfold proj
  rw [Matrix.diagonal_mul_diagonal]
  congr 1
  funext i
  by_cases h : i ∈ l <;> simp [h]

theorem proj_mul_apply (l : List n) (ρ : Matrix n n ℂ) (i j : n) : (proj l * ρ * proj l) i j = if i ∈ l ∧ j ∈ l then ρ i j else 0 := by
  unfold proj
  rw [Matrix.mul_diagonal, Matrix.diagonal_mul]
  by_cases h : i ∈ l <;> by_cases k : j ∈ l <;> simp [h, k]

/-- Leakage of a part of a state in the subspace. -/
theorem outside_part {m : Nat} (l : List n) (K : Fin m → Matrix n n ℂ) {ρ : Matrix n n ℂ} (h : ρ.PosSemidef) (ht : ρ.trace = 1) :
    outside l (kraus K (proj l * ρ * proj l)) ≤ outside l (kraus K (proj l)) := by
  refine outside_mono l K ?_
  have h1 := (trace_sub_posSemidef h).mul_mul_conjTranspose_same (proj l)
  rwa [ht, one_smul, proj_conj, Matrix.mul_sub, Matrix.sub_mul, Matrix.mul_one, proj_sq] at h1

theorem StateOn.part {l : List n} {ρ : Matrix n n ℂ} (h : StateOn l ρ) : proj l * ρ * proj l = ρ := by
  ext i j
  rw [proj_mul_apply]
  split
  · rfl
  · rename_i hk
    by_cases hi : i ∈ l
    · have hj : j ∉ l := fun hj => hk ⟨hi, hj⟩
      have := congrFun (congrFun h.pos.1 i) j
      rw [Matrix.conjTranspose_apply, h.support j i hj, star_zero] at this
      exact this
    · exact (h.support i j hi).symm

/-- Amplitudes add up, not populations. -/
theorem outside_split {m : Nat} (l : List n) (K : Fin m → Matrix n n ℂ) {ρ : Matrix n n ℂ} (h : ρ.PosSemidef) {t : ℝ} (ht : 0 < t) :
    outside l (kraus K ρ) ≤ (1 + t) * outside l (kraus K (proj l * ρ * proj l)) +
      (1 + t⁻¹) * outside l (kraus K ((1 - proj l) * ρ * (1 - proj l))) := by
  set P := proj l with hP
  set Q := 1 - proj l with hQ
  have hPQ : P + Q = 1 := by rw [hP, hQ]; abel
  have hQc : Qᴴ = Q := by rw [hQ, Matrix.conjTranspose_sub, Matrix.conjTranspose_one, proj_conj]
  have hPc : Pᴴ = P := proj_conj l
  have htc : (t : ℂ) ≠ 0 := by exact_mod_cast ht.ne'
  have h1 := h.mul_mul_conjTranspose_same ((t : ℂ) • P - Q)
  have h2 : ((((1 + t : ℝ) : ℂ) • (P * ρ * P) + ((1 + t⁻¹ : ℝ) : ℂ) • (Q * ρ * Q)) - ρ) =
      ((t⁻¹ : ℝ) : ℂ) • (((t : ℂ) • P - Q) * ρ * ((t : ℂ) • P - Q)ᴴ) := by
    have e : ρ = (P + Q) * ρ * (P + Q) := by rw [hPQ, Matrix.one_mul, Matrix.mul_one]
    have e1 : ((t : ℂ) • P - Q)ᴴ = (t : ℂ) • P - Q := by
      rw [Matrix.conjTranspose_sub, Matrix.conjTranspose_smul, hPc, hQc]
      simp
    rw [e1]
    conv_lhs => rw [e]
    have eP : P * ((P + Q) * ρ * (P + Q)) * P = P * ρ * P := by rw [← e]
    have eQ : Q * ((P + Q) * ρ * (P + Q)) * Q = Q * ρ * Q := by rw [← e]
    rw [eP, eQ]
    simp only [Matrix.add_mul, Matrix.mul_add, Matrix.sub_mul, Matrix.mul_sub, Matrix.smul_mul, Matrix.mul_smul, smul_sub, smul_smul]
    push_cast
    rw [show ((t : ℂ)⁻¹ * (t * t)) = t by field_simp, show ((t : ℂ)⁻¹ * t) = 1 by field_simp, add_smul, add_smul]
    simp only [one_smul]
    abel
  have h3 : ((((1 + t : ℝ) : ℂ) • (P * ρ * P) + ((1 + t⁻¹ : ℝ) : ℂ) • (Q * ρ * Q)) - ρ).PosSemidef := by
    rw [h2]
    refine h1.smul ?_
    exact_mod_cast (inv_pos.mpr ht).le
  have h4 := outside_mono l K h3
  rwa [kraus_add, outside_add, kraus_smul, kraus_smul, outside_smul, outside_smul] at h4

theorem sqrt_of_split {a b c : ℝ} (ha : 0 ≤ a) (hb : 0 ≤ b) (h : ∀ t : ℝ, 0 < t → c ≤ (1 + t) * b + (1 + t⁻¹) * a) : √c ≤ √a + √b := by
  set x := √a with hx
  set y := √b with hy
  have hx0 : 0 ≤ x := Real.sqrt_nonneg _
  have hy0 : 0 ≤ y := Real.sqrt_nonneg _
  have hxa : a = x * x := (Real.mul_self_sqrt ha).symm
  have hyb : b = y * y := (Real.mul_self_sqrt hb).symm
  refine Real.sqrt_le_iff.mpr ⟨by positivity, ?_⟩
  refine le_of_forall_pos_le_add fun δ hδ => ?_
  obtain ⟨ε, hε, hεδ⟩ : ∃ ε : ℝ, 0 < ε ∧ 2 * ε * (x + y) ≤ δ := by
    refine ⟨δ / (2 * (x + y) + 1), by positivity, ?_⟩
    have : 0 < 2 * (x + y) + 1 := by positivity
    rw [show 2 * (δ / (2 * (x + y) + 1)) * (x + y) = δ * (2 * (x + y)) / (2 * (x + y) + 1) by ring, div_le_iff₀ this]
    nlinarith
  have k := h ((x + ε) / (y + ε)) (by positivity)
  have k1 : (1 + (x + ε) / (y + ε)) * b ≤ (x + y + 2 * ε) * y := by
    have : 1 + (x + ε) / (y + ε) = (x + y + 2 * ε) / (y + ε) := by field_simp; ring
    rw [this, hyb, div_mul_eq_mul_div, div_le_iff₀ (by positivity)]
    have : 0 ≤ (x + y + 2 * ε) * y * ε := by positivity
    nlinarith
  have k2 : (1 + ((x + ε) / (y + ε))⁻¹) * a ≤ (x + y + 2 * ε) * x := by
    have : 1 + ((x + ε) / (y + ε))⁻¹ = (x + y + 2 * ε) / (x + ε) := by rw [inv_div]; field_simp; ring
    rw [this, hxa, div_mul_eq_mul_div, div_le_iff₀ (by positivity)]
    have : 0 ≤ (x + y + 2 * ε) * x * ε := by positivity
    nlinarith
  nlinarith

theorem kraus_two {m₁ m₂ : Nat} (A : Fin m₁ → Matrix n n ℂ) (B : Fin m₂ → Matrix n n ℂ) (ρ : Matrix n n ℂ) :
    ((∑ r, Solver.unitarySup (B r)) * ∑ r, Solver.unitarySup (A r)) *ᵥ vec ρ = vec (kraus B (kraus A ρ)) := by
  rw [← Matrix.mulVec_mulVec, kraus_action, kraus_action]
  rfl

/-- The fully mixed computational state is the projector up to a factor. -/
theorem mixed_eq (l : List n) :
    (Matrix.diagonal fun i => if i ∈ l then 1 / (l.length : ℂ) else 0) = (((l.length : ℝ)⁻¹ : ℝ) : ℂ) • proj l := by
  unfold proj
  rw [← Matrix.diagonal_smul]
  congr 1
  funext i
  by_cases h : i ∈ l <;> simp [h]

theorem leak_of_map (l : List n) (hl : l.Nodup) (hne : l ≠ []) (P : Sup n) (E : Matrix n n ℂ → Matrix n n ℂ)
    (hE : ∀ ρ, P *ᵥ vec ρ = vec (E ρ)) (hd : ∀ ρ : Matrix n n ℂ, ρ.PosSemidef → ρ.trace = 1 → (E ρ).PosSemidef ∧ (E ρ).trace = 1) :
    leakElement l P = outside l (E ((((l.length : ℝ)⁻¹ : ℝ) : ℂ) • proj l)) := by
  obtain ⟨ρ', -, -, a3, a4⟩ := leakElement_density l hl hne P fun ρ h1 h2 => ⟨E ρ, hE ρ, hd ρ h1 h2⟩
  rw [hE, mixed_eq] at a3
  rw [a4, Matrix.vec_inj.mp a3]
  rfl

theorem leak_kraus {m : Nat} (l : List n) (hl : l.Nodup) (hne : l ≠ []) (K : Fin m → Matrix n n ℂ) (hK : ∑ r, (K r)ᴴ * K r = 1) :
    (l.length : ℝ) * leakElement l (∑ r, Solver.unitarySup (K r)) = outside l (kraus K (proj l)) := by
  have hd : (l.length : ℝ) ≠ 0 := by exact_mod_cast (List.length_pos_iff.mpr hne).ne'
  rw [leak_of_map l hl hne _ (kraus K) (fun ρ => kraus_action K ρ) (kraus_density K hK), kraus_smul, outside_smul,
    mul_inv_cancel_left₀ hd]

theorem Playable.kraus {p : LPar n} {Ls : List (Matrix n n ℂ)} (h : p.Local Ls) (hm : p.method = .frechet) (hE : p.L.ExpmOk)
    (hi : p.init = 1) (hc : ∀ H ∈ p.ctrl, H.IsHermitian) {S : List (OpenStep n)} (hS : Playable p S) :
    ∃ (f : List (Sup n)) (m : Nat) (K : Fin m → Matrix n n ℂ), openRun p S = .ok f ∧
      f.getLast? = some (∑ r, Solver.unitarySup (K r)) ∧ ∑ r, (K r)ᴴ * K r = 1 := by
  have hg : (⟨S, 1⟩ : OpenGate n none).Ok p := ⟨hS.nonempty, hS.cols, hS.hermitian, hS.durations, hS.rates, one_mem _⟩
  obtain ⟨f, m, K, h1, h2, h3, -⟩ := hg.value h hm hE hi hc
  exact ⟨f, m, K, h1, h2, h3⟩

theorem Playable.append {p : LPar n} {S₁ S₂ : List (OpenStep n)} (h₁ : Playable p S₁) (h₂ : Playable p S₂) : Playable p (S₁ ++ S₂) where
  nonempty := by simp [h₁.nonempty]
  cols s hs := (List.mem_append.mp hs).elim (h₁.cols s) (h₂.cols s)
  hermitian s hs := (List.mem_append.mp hs).elim (h₁.hermitian s) (h₂.hermitian s)
  durations s hs := (List.mem_append.mp hs).elim (h₁.durations s) (h₂.durations s)
  rates f hf s hs := (List.mem_append.mp hs).elim (h₁.rates f hf s) (h₂.rates f hf s)

theorem openLeak_ok {p : LPar n} {l : List n} {S : List (OpenStep n)} {f : List (Sup n)} {P : Sup n} (h : openRun p S = .ok f)
    (hP : f.getLast? = some P) : openLeak p l S = .ok (leakElement l P) := by
  unfold openLeak leakLiouvilleSup
  rw [h]
  simp only [bind, Except.bind]
  rw [last_ok hP]
  rfl

/-! ## The property -/

/-- **C179** For every state of the computational subspace, the population which is outside of it after the pulse is at most the number
of computational states times the reported leakage. -/
theorem c179_every_state (p : LPar n) (Ls : List (Matrix n n ℂ)) (h : p.Local Ls) (hm : p.method = .frechet) (hE : p.L.ExpmOk)
    (hi : p.init = 1) (hc : ∀ H ∈ p.ctrl, H.IsHermitian) (S : List (OpenStep n)) (hS : Playable p S)
    (l : List n) (hl : l.Nodup) (hne : l ≠ []) (ρ : Matrix n n ℂ) (hρ : StateOn l ρ) :
    ∃ (f : List (Sup n)) (P : Sup n) (c : ℝ) (ρ' : Matrix n n ℂ), openRun p S = .ok f ∧ f.getLast? = some P ∧ openLeak p l S = .ok c ∧
      P *ᵥ vec ρ = vec ρ' ∧ ρ'.PosSemidef ∧ ρ'.trace = 1 ∧ 0 ≤ outside l ρ' ∧ outside l ρ' ≤ l.length * c := by
  obtain ⟨f, m, K, h1, h2, h3⟩ := hS.kraus h hm hE hi hc
  obtain ⟨k1, k2⟩ := kraus_density K h3 ρ hρ.pos hρ.trace
  refine ⟨f, _, _, kraus K ρ, h1, h2, openLeak_ok h1 h2, kraus_action K ρ, k1, k2, outside_nonneg l k1, ?_⟩
  rw [leak_kraus l hl hne K h3]
  have := outside_part l K hρ.pos hρ.trace
  rwa [hρ.part] at this

/-- **C179** Two pulses: the square root of the leakage of the sequence is at most the square root of the leakage of the first pulse and
the square root of the largest leakage, over the states, which the second one allows. -/
theorem c179_two_pulses (p : LPar n) (Ls : List (Matrix n n ℂ)) (h : p.Local Ls) (hm : p.method = .frechet) (hE : p.L.ExpmOk)
    (hi : p.init = 1) (hc : ∀ H ∈ p.ctrl, H.IsHermitian) (S₁ S₂ : List (OpenStep n)) (h₁ : Playable p S₁) (h₂ : Playable p S₂)
    (l : List n) (hl : l.Nodup) (hne : l ≠ []) :
    ∃ c₁ c₂ c : ℝ, openLeak p l S₁ = .ok c₁ ∧ openLeak p l S₂ = .ok c₂ ∧ openLeak p l (S₁ ++ S₂) = .ok c ∧
      0 ≤ c₁ ∧ 0 ≤ c₂ ∧ 0 ≤ c ∧ √c ≤ √c₁ + √(l.length * c₂) := by
  obtain ⟨f₁, m₁, A, a1, a2, a3⟩ := h₁.kraus h hm hE hi hc
  obtain ⟨f₂, m₂, B, b1, b2, b3⟩ := h₂.kraus h hm hE hi hc
  obtain ⟨f₁', f₂', f, E₁, E₂, k1, k2, k3, k4, k5, k6⟩ := c128_product p Ls h hm hE hi S₁ S₂ h₁.nonempty h₂.nonempty (h₁.append h₂).cols
  rw [a1] at k1
  cases k1
  rw [b1] at k2
  cases k2
  rw [a2] at k4
  cases k4
  rw [b2] at k5
  cases k5
  have hd : (0 : ℝ) < l.length := by exact_mod_cast List.length_pos_iff.mpr hne
  obtain ⟨m1, m2⟩ := leak_mixed l hl hne
  rw [mixed_eq] at m1 m2
  set μ : Matrix n n ℂ := (((l.length : ℝ)⁻¹ : ℝ) : ℂ) • proj l with hμ
  obtain ⟨d1, d2⟩ := kraus_density A a3 μ m1 m2
  have e₁ : leakElement l (∑ r, Solver.unitarySup (A r)) = outside l (kraus A μ) :=
    leak_of_map l hl hne _ (kraus A) (fun ρ => kraus_action A ρ) (kraus_density A a3)
  have e₂ : leakElement l (∑ r, Solver.unitarySup (B r)) = outside l (kraus B μ) :=
    leak_of_map l hl hne _ (kraus B) (fun ρ => kraus_action B ρ) (kraus_density B b3)
  have e : leakElement l ((∑ r, Solver.unitarySup (B r)) * ∑ r, Solver.unitarySup (A r)) = outside l (kraus B (kraus A μ)) :=
    leak_of_map l hl hne _ (fun ρ => kraus B (kraus A ρ)) (fun ρ => kraus_two A B ρ) fun ρ r1 r2 => by
      obtain ⟨q1, q2⟩ := kraus_density A a3 ρ r1 r2
      exact kraus_density B b3 _ q1 q2
  have n₁ : 0 ≤ outside l (kraus A μ) := outside_nonneg l d1
  have n₂ : 0 ≤ outside l (kraus B μ) := outside_nonneg l (kraus_pos B m1)
  refine ⟨_, _, _, openLeak_ok a1 a2, openLeak_ok b1 b2, openLeak_ok k3 k6, by rw [e₁]; exact n₁, by rw [e₂]; exact n₂,
    by rw [e]; exact outside_nonneg l (kraus_pos B d1), ?_⟩
  rw [leak_kraus l hl hne B b3, e₁, e]
  have nP : 0 ≤ outside l (kraus B (proj l)) := by
    rw [← leak_kraus l hl hne B b3, e₂]
    positivity
  refine sqrt_of_split n₁ nP fun t ht => ?_
  refine (outside_split l B d1 ht).trans ?_
  have q1 := outside_part l B d1 d2
  have q2 : outside l (kraus B ((1 - proj l) * kraus A μ * (1 - proj l))) ≤ outside l (kraus A μ) := by
    have hQ : (1 - proj l : Matrix n n ℂ)ᴴ = 1 - proj l := by rw [Matrix.conjTranspose_sub, Matrix.conjTranspose_one, proj_conj]
    have r1 : ((1 - proj l) * kraus A μ * (1 - proj l)).PosSemidef := by
      have := d1.mul_mul_conjTranspose_same (1 - proj l)
      rwa [hQ] at this
    refine (outside_le_trace l (kraus_pos B r1)).trans (le_of_eq ?_)
    have r2 : (kraus B ((1 - proj l) * kraus A μ * (1 - proj l))).trace = ((1 - proj l) * kraus A μ * (1 - proj l)).trace := by
      unfold kraus
      rw [Matrix.trace_sum, Finset.sum_congr rfl fun r _ => (by rw [Matrix.trace_mul_comm, ← Matrix.mul_assoc] :
        (B r * ((1 - proj l) * (∑ r, A r * μ * (A r)ᴴ) * (1 - proj l)) * (B r)ᴴ).trace =
          ((B r)ᴴ * B r * ((1 - proj l) * (∑ r, A r * μ * (A r)ᴴ) * (1 - proj l))).trace), ← Matrix.trace_sum, ← Matrix.sum_mul, b3,
        Matrix.one_mul]
    rw [r2, Matrix.trace, Complex.re_sum]
    unfold outside
    refine Finset.sum_congr rfl fun i _ => ?_
    have r3 : (1 - proj l : Matrix n n ℂ) = Matrix.diagonal fun i => if i ∈ l then 0 else 1 := by
      unfold proj
      rw [← Matrix.diagonal_one, Matrix.diagonal_sub]
      congr 1
      funext i
      by_cases hi : i ∈ l <;> simp [hi]
    rw [r3, Matrix.diag_apply, Matrix.mul_diagonal, Matrix.diagonal_mul]
    by_cases hi : i ∈ l <;> simp [hi]
  have t1 : 0 ≤ 1 + t := by positivity
  have t2 : 0 ≤ 1 + t⁻¹ := by positivity
  exact add_le_add (mul_le_mul_of_nonneg_left q1 t1) (mul_le_mul_of_nonneg_left q2 t2)

/-- **C179** Any number of pulses. -/
theorem c179_sequence (p : LPar n) (Ls : List (Matrix n n ℂ)) (h : p.Local Ls) (hm : p.method = .frechet) (hE : p.L.ExpmOk)
    (hi : p.init = 1) (hc : ∀ H ∈ p.ctrl, H.IsHermitian) (S : List (OpenStep n)) (Ss : List (List (OpenStep n))) (hS : Playable p S)
    (hSs : ∀ S' ∈ Ss, Playable p S') (l : List n) (hl : l.Nodup) (hne : l ≠ []) :
    ∃ (c c₁ : ℝ) (cs : List ℝ), openLeak p l (S ++ Ss.flatten) = .ok c ∧ openLeak p l S = .ok c₁ ∧
      Ss.map (openLeak p l) = cs.map .ok ∧ √c ≤ √c₁ + (cs.map fun x => √(l.length * x)).sum := by
  suffices H : Playable p (S ++ Ss.flatten) ∧ ∃ (c c₁ : ℝ) (cs : List ℝ), openLeak p l (S ++ Ss.flatten) = .ok c ∧
      openLeak p l S = .ok c₁ ∧ Ss.map (openLeak p l) = cs.map .ok ∧ √c ≤ √c₁ + (cs.map fun x => √(l.length * x)).sum from H.2
  induction Ss using List.reverseRecOn with
  | nil =>
    obtain ⟨c₁, -, -, e, -⟩ := c179_two_pulses p Ls h hm hE hi hc S S hS hS l hl hne
    exact ⟨by simpa using hS, c₁, c₁, [], by simpa using e, e, rfl, by simp⟩
  | append_singleton Ss S' ih =>
    obtain ⟨g1, c, c₁, cs, g2, g3, g4, g5⟩ := ih fun T hT => hSs T (by simp [hT])
    have hS' := hSs S' (by simp)
    obtain ⟨d, d₂, d', e1, e2, e3, -, -, -, e4⟩ := c179_two_pulses p Ls h hm hE hi hc _ S' g1 hS' l hl hne
    rw [g2] at e1
    cases e1
    refine ⟨by simpa using g1.append hS', d', c₁, cs ++ [d₂], by simpa using e3, g3, by simp [g4, e2], ?_⟩
    rw [List.map_append, List.sum_append]
    simp only [List.map_cons, List.map_nil, List.sum_cons, List.sum_nil, add_zero]
    linarith

/-! ## Concrete cases -/

namespace Ex179

/-- The heated and cooled qubit of C151 (levels 0 and 1), its ground state being the computational subspace. -/
theorem idle_playable (L : Lapack (Fin 2 × Fin 2)) {a b : ℝ} (ha : 0 ≤ a) (hb : 0 ≤ b) :
    Playable (Ex151.bath L) (Ex151.idle a b).steps :=
  have h := Ex151.idle_ok L ha hb
  ⟨h.nonempty, h.cols, h.hermitian, h.durations, h.rates⟩

theorem ground : StateOn [(0 : Fin 2)] !![1, 0; 0, 0] where
  pos := by
    have : (!![1, 0; 0, 0] : Matrix (Fin 2) (Fin 2) ℂ) = Matrix.diagonal ![1, 0] := by
      ext i j; fin_cases i <;> fin_cases j <;> simp
    rw [this]
    refine Matrix.PosSemidef.diagonal fun i => ?_
    fin_cases i <;> simp
  trace := by simp [Matrix.trace, Fin.sum_univ_two]
  support i j hi := by fin_cases i <;> fin_cases j <;> simp_all

/-- Three levels, the upper computational state 1 being excited to level 2. -/
noncomputable def heater (L : Lapack (Fin 3 × Fin 3)) : LPar (Fin 3) :=
  ⟨L, .frechet, false, 1, [], [], ⟨none, some [!![0, 0, 0; 0, 0, 0; 0, 1, 0]], none, none, none, none⟩⟩

theorem heater_local (L : Lapack (Fin 3 × Fin 3)) : (heater L).Local [!![0, 0, 0; 0, 0, 0; 0, 1, 0]] :=
  ⟨rfl, rfl, by simp, fun f hf => by cases hf⟩

def wait : List (OpenStep (Fin 3)) := [⟨0, 1, [], []⟩]

theorem wait_playable (L : Lapack (Fin 3 × Fin 3)) : Playable (heater L) wait where
  nonempty := by simp [wait]
  cols := by simp [wait, heater]
  hermitian := by
    intro s hs
    simp only [wait, List.mem_singleton] at hs
    subst hs
    exact Matrix.conjTranspose_zero
  durations := by simp [wait]
  rates := by intro f hf; cases hf

theorem heater_rates (L : Lapack (Fin 3 × Fin 3)) (a b c : ℂ) :
    Solver.stepGen (heater L) [!![0, 0, 0; 0, 0, 0; 0, 1, 0]] ⟨0, 1, [], []⟩ *ᵥ Matrix.vec !![a, 0, 0; 0, b, 0; 0, 0, c] =
      (-b) • Matrix.vec !![0, 0, 0; 0, 1, 0; 0, 0, -1] := by
  have hH : hamiltonian (0 : Matrix (Fin 3) (Fin 3) ℂ) (heater L).ctrl [] = 0 := by simp [hamiltonian, heater]
  have hl : (!![0, 0, 0; 0, 0, 0; 0, 1, 0] : Matrix (Fin 3) (Fin 3) ℂ)ᴴ = !![0, 0, 0; 0, 0, 1; 0, 0, 0] := by
    ext i j; fin_cases i <;> fin_cases j <;> simp
  unfold Solver.stepGen
  rw [hH, supGen_mulVec _ _ Matrix.conjTranspose_zero, wDiss_mulVec]
  ext ⟨j, i⟩
  fin_cases i <;> fin_cases j <;> simp [flip, weightsAt, heater, hl] <;> ring

theorem heater_step (L : Lapack (Fin 3 × Fin 3)) (a : ℂ) :
    stepProp (heater L) [!![0, 0, 0; 0, 0, 0; 0, 1, 0]] ⟨0, 1, [], []⟩ *ᵥ Matrix.vec !![a, 0, 0; 0, 1, 0; 0, 0, 0] =
      Matrix.vec !![a, 0, 0; 0, Complex.exp (-1), 0; 0, 0, 1 - Complex.exp (-1)] := by
  have e1 : (!![a, 0, 0; 0, 1, 0; 0, 0, 0] : Matrix (Fin 3) (Fin 3) ℂ) = !![a, 0, 0; 0, 0, 0; 0, 0, 1] + !![0, 0, 0; 0, 1, 0; 0, 0, -1] := by
    ext i j; fin_cases i <;> fin_cases j <;> simp
  have h1 := heater_rates L a 0 1
  have h2 := heater_rates L 0 1 (-1)
  have h3 : (-0 : ℂ) • Matrix.vec (!![0, 0, 0; 0, 1, 0; 0, 0, -1] : Matrix (Fin 3) (Fin 3) ℂ) =
      (0 : ℂ) • Matrix.vec !![a, 0, 0; 0, 0, 0; 0, 0, 1] := by simp
  unfold stepProp
  rw [Complex.ofReal_one, one_smul, e1, Matrix.vec_add, Matrix.mulVec_add, exp_eigen (h1.trans h3), exp_eigen h2]
  ext ⟨j, i⟩
  fin_cases i <;> fin_cases j <;> simp [Matrix.vec, flip, sub_eq_add_neg]

theorem heater_final (L : Lapack (Fin 3 × Fin 3)) (hE : L.ExpmOk) :
    ∃ f, openRun (heater L) wait = .ok f ∧
      f.getLast? = some (stepProp (heater L) [!![0, 0, 0; 0, 0, 0; 0, 1, 0]] ⟨0, 1, [], []⟩) := by
  obtain ⟨f, h1, h2⟩ := openRun_ok (heater L) (heater_local L) rfl hE wait (by simp [wait]) (by simp [wait, heater])
  refine ⟨f, h1, ?_⟩
  rw [List.getLast?_eq_getElem?, h2.1, Nat.add_sub_cancel, isForward_unique h2 _ le_rfl, List.take_length,
    show (heater L).init = 1 from rfl]
  simp [wait]

theorem excited : StateOn [(0 : Fin 3), 1] !![0, 0, 0; 0, 1, 0; 0, 0, 0] where
  pos := by
    have : (!![0, 0, 0; 0, 1, 0; 0, 0, 0] : Matrix (Fin 3) (Fin 3) ℂ) = Matrix.diagonal ![0, 1, 0] := by
      ext i j; fin_cases i <;> fin_cases j <;> simp
    rw [this]
    refine Matrix.PosSemidef.diagonal fun i => ?_
    fin_cases i <;> simp
  trace := by simp [Matrix.trace, Fin.sum_univ_three]
  support i j hi := by fin_cases i <;> fin_cases j <;> simp_all

/-- `c179_every_state` for the ground state while the qubit is heated: the bound is not trivial, as population does leak. -/
example : ∃ (L : Lapack (Fin 2 × Fin 2)) (c : ℝ),
    openLeak (Ex151.bath L) [0] (Ex151.idle 0 1).steps = .ok c ∧ 0 < 1 - Real.exp (-1) ∧ 1 - Real.exp (-1) ≤ c := by
  obtain ⟨L, -, -, hE, -⟩ := lapack_exists (Fin 2 × Fin 2)
  obtain ⟨f, P, c, ρ', h1, h2, h3, h4, -, -, -, h8⟩ := c179_every_state (Ex151.bath L) _ (Ex151.bath_local L) rfl hE rfl
    (by simp [Ex151.bath]) _ (idle_playable L le_rfl zero_le_one) [0] (by simp) (by simp) _ ground
  obtain ⟨f', k1, k2⟩ := Ex151.final_one L hE 0 1
  rw [h1] at k1
  cases k1
  rw [h2] at k2
  cases k2
  rw [Ex151.heat] at h4
  refine ⟨L, c, h3, sub_pos.mpr (by rw [← Real.exp_zero]; exact Real.exp_lt_exp.mpr (by norm_num)), ?_⟩
  rw [← Matrix.vec_inj.mp h4] at h8
  have e : (Complex.exp (-1)).re = Real.exp (-1) := by
    rw [show (-1 : ℂ) = ((-1 : ℝ) : ℂ) by simp, ← Complex.ofReal_exp, Complex.ofReal_re]
  simpa [outside, Fin.sum_univ_two, e] using h8

/-- `c179_sequence` for heating followed by cooling and more heating. -/
example : ∃ (L : Lapack (Fin 2 × Fin 2)) (c c₁ : ℝ) (cs : List ℝ),
    openLeak (Ex151.bath L) [0] ((Ex151.idle 0 1).steps ++ [(Ex151.idle 1 0).steps, (Ex151.idle 0 2).steps].flatten) = .ok c ∧
    openLeak (Ex151.bath L) [0] (Ex151.idle 0 1).steps = .ok c₁ ∧
    [(Ex151.idle 1 0).steps, (Ex151.idle 0 2).steps].map (openLeak (Ex151.bath L) [0]) = cs.map .ok ∧
    √c ≤ √c₁ + (cs.map fun x => √([(0 : Fin 2)].length * x)).sum := by
  obtain ⟨L, -, -, hE, -⟩ := lapack_exists (Fin 2 × Fin 2)
  obtain ⟨c, c₁, cs, h1, h2, h3, h4⟩ := c179_sequence (Ex151.bath L) _ (Ex151.bath_local L) rfl hE rfl (by simp [Ex151.bath])
    (Ex151.idle 0 1).steps [(Ex151.idle 1 0).steps, (Ex151.idle 0 2).steps] (idle_playable L le_rfl zero_le_one)
    (by
      intro S hS
      simp only [List.mem_cons, List.not_mem_nil, or_false] at hS
      rcases hS with rfl | rfl
      exacts [idle_playable L zero_le_one le_rfl, idle_playable L le_rfl zero_le_two]) [0] (by simp) (by simp)
  exact ⟨L, c, c₁, cs, h1, h2, h3, h4⟩

end Ex179

/-- **C179** The factor is needed: there are a system with two computational states and a state which leaks twice as much as the cost
function reports. -/
theorem c179_factor : ∃ (p : LPar (Fin 3)) (Ls : List (Matrix (Fin 3) (Fin 3) ℂ)) (S : List (OpenStep (Fin 3))) (ρ : Matrix (Fin 3) (Fin 3) ℂ),
    p.Local Ls ∧ p.method = .frechet ∧ p.L.ExpmOk ∧ p.init = 1 ∧ (∀ H ∈ p.ctrl, H.IsHermitian) ∧ Playable p S ∧ StateOn [0, 1] ρ ∧
    ∃ (f : List (Sup (Fin 3))) (P : Sup (Fin 3)) (c : ℝ) (ρ' : Matrix (Fin 3) (Fin 3) ℂ), openRun p S = .ok f ∧ f.getLast? = some P ∧
      openLeak p [0, 1] S = .ok c ∧ P *ᵥ vec ρ = vec ρ' ∧ 0 < c ∧ outside [0, 1] ρ' = 2 * c := by
  obtain ⟨L, -, -, hE, -⟩ := lapack_exists (Fin 3 × Fin 3)
  obtain ⟨f, m, K, h1, h2, h3⟩ := (Ex179.wait_playable L).kraus (Ex179.heater_local L) rfl hE rfl (by simp [Ex179.heater])
  obtain ⟨f', k1, k2⟩ := Ex179.heater_final L hE
  rw [h1] at k1
  cases k1
  have hP := h2.symm.trans k2
  rw [Option.some.injEq] at hP
  have e : (Complex.exp (-1)).re = Real.exp (-1) := by
    rw [show (-1 : ℂ) = ((-1 : ℝ) : ℂ) by simp, ← Complex.ofReal_exp, Complex.ofReal_re]
  have ho : ∀ a : ℂ, outside [(0 : Fin 3), 1] !![a, 0, 0; 0, Complex.exp (-1), 0; 0, 0, 1 - Complex.exp (-1)] = 1 - Real.exp (-1) := by
    intro a
    simp [outside, Fin.sum_univ_three, e]
  have hc := leak_kraus [(0 : Fin 3), 1] (by decide) (by simp) K h3
  have hp : proj [(0 : Fin 3), 1] = !![1, 0, 0; 0, 1, 0; 0, 0, 0] := by
    ext i j; fin_cases i <;> fin_cases j <;> simp [proj, Matrix.diagonal_apply]
  have hk : kraus K (proj [(0 : Fin 3), 1]) = !![1, 0, 0; 0, Complex.exp (-1), 0; 0, 0, 1 - Complex.exp (-1)] := by
    have a1 : (∑ x, Solver.unitarySup (K x)) *ᵥ Matrix.vec (proj [(0 : Fin 3), 1]) = Matrix.vec (kraus K (proj [(0 : Fin 3), 1])) :=
      kraus_action K _
    rw [hP, hp, Ex179.heater_step] at a1
    rw [hp]
    exact (Matrix.vec_inj.mp a1).symm
  rw [hk, ho] at hc
  have hpos : (0 : ℝ) < 1 - Real.exp (-1) := sub_pos.mpr (by rw [← Real.exp_zero]; exact Real.exp_lt_exp.mpr (by norm_num))
  have hc' : 2 * leakElement [(0 : Fin 3), 1] (∑ r, Solver.unitarySup (K r)) = 1 - Real.exp (-1) := by
    rw [← hc]
    norm_num
  refine ⟨Ex179.heater L, _, Ex179.wait, _, Ex179.heater_local L, rfl, hE, rfl, by simp [Ex179.heater], Ex179.wait_playable L, Ex179.excited,
    f, _, _, !![0, 0, 0; 0, Complex.exp (-1), 0; 0, 0, 1 - Complex.exp (-1)], h1, h2, openLeak_ok h1 h2, ?_, by linarith, ?_⟩
  · rw [hP]
    exact Ex179.heater_step L 0
  · rw [ho, hc']

end
end Verif.Cost
