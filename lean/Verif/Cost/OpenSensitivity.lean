import Verif.Cost.OpenSequence
import Verif.Cost.OpenSampled
import Verif.Cost.OpenSubsystems

/-!
# C152: inexact Hamiltonians and rates of open systems

Two `LindbladSolver`s (solver_algorithms.py:1778-2105) with the same time steps and Lindblad operators but different Hamiltonians, pulses
or rates: how much the expectation values and the values of `OperationInfidelity` (cost_functions.py:1171-1275, super operators 1256-1259)
can differ.
-/

namespace Verif.Cost
open Verif Verif.Operator Verif.Solver Matrix
open scoped Kronecker ComplexOrder

section
open scoped Matrix.Norms.L2Operator
variable {n : Type} [Fintype n] [DecidableEq n]

/-! ## Specification -/

/-- The solver can be run with Lindblad operators `Ls`: everything has the right shape, the Hamiltonians are Hermitian, the durations and the
rates are not negative, and the evolution starts from the identity. -/
structure OpenOk (p : LPar n) (Ls : List (Matrix n n ℂ)) (times : List ℝ) (u x : Pulse) : Prop where
  lindblads : p.Lindblads Ls times u x
  nonempty : times ≠ []
  drift : p.drift.length = times.length
  pulse : u.length = times.length
  rows : ∀ row ∈ u, row.length = p.ctrl.length
  driftH : ∀ H ∈ p.drift, H.IsHermitian
  ctrlH : ∀ H ∈ p.ctrl, H.IsHermitian
  method : p.method = .frechet
  expm : p.L.ExpmOk
  init : p.init = 1
  durations : ∀ τ ∈ times, 0 ≤ τ
  rates : ∀ f, p.diss.prefactor = some f → ∀ row ∈ f u x, ∀ w ∈ row, 0 ≤ w

/-- The Hamiltonian in time step `t`. -/
noncomputable def LPar.hamAt (p : LPar n) (u : Pulse) (t : Nat) : Matrix n n ℂ := hamiltonian (p.drift.getD t 0) p.ctrl (u.getD t [])

/-- How much two descriptions of the system differ, in units of frequency times time. -/
noncomputable def distance (Ls : List (Matrix n n ℂ)) (times : List ℝ) (p : LPar n) (u x : Pulse) (q : LPar n) (v y : Pulse) : ℝ :=
  ∑ t : Fin times.length, times[t] * mismatch Ls (LPar.hamAt p u t) (LPar.hamAt q v t) (weightsAt p Ls u x t) (weightsAt q Ls v y t)

/-! ## Lemmas -/

/-- A physical operation. -/
def Channel (M : Sup n) : Prop := CompletelyPositive M ∧ Physical M

theorem Channel.one : Channel (1 : Sup n) := ⟨.one, .one⟩

theorem Channel.mul {M N : Sup n} (hM : Channel M) (hN : Channel N) : Channel (M * N) := ⟨hM.1.mul hN.1, hM.2.mul hN.2⟩

theorem Channel.foldl {l : List (Sup n)} (h : ∀ M ∈ l, Channel M) {F : Sup n} (hF : Channel F) :
    Channel (l.foldl (fun F P => P * F) F) := by
  induction l generalizing F with
  | nil => exact hF
  | cons M l ih => exact ih (fun N hN => h N (by simp [hN])) ((h M (by simp)).mul hF)

omit [DecidableEq n] in
theorem foldl_right [DecidableEq n] (l : List (Sup n)) (F : Sup n) :
    l.foldl (fun F P => P * F) F = l.foldl (fun F P => P * F) 1 * F := by
  induction l generalizing F with
  | nil => simp
  | cons M l ih => rw [List.foldl_cons, List.foldl_cons, ih, ih (M * 1), Matrix.mul_one, Matrix.mul_assoc]

/-- Functionals of operations which are not sensitive to a change of the generator. -/
def Insensitive {E : Type} [NormedAddCommGroup E] [NormedSpace ℝ E] (φ : Sup n →L[ℝ] E) (D : Sup n) (c : ℝ) : Prop :=
  ∀ M N : Sup n, Channel M → Channel N → ‖φ (M * D * N)‖ ≤ c

/-- One time step with two generators. -/
theorem Insensitive.step {E : Type} [NormedAddCommGroup E] [NormedSpace ℝ E] {φ : Sup n →L[ℝ] E} {G K : Sup n} {c τ : ℝ}
    (h : Insensitive φ (G - K) c) (hτ : 0 ≤ τ) (hG : ∀ s : ℝ, 0 ≤ s → Channel (NormedSpace.exp ((s : ℂ) • G)))
    (hK : ∀ s : ℝ, 0 ≤ s → Channel (NormedSpace.exp ((s : ℂ) • K))) {M N : Sup n} (hM : Channel M) (hN : Channel N) :
    ‖φ (M * NormedSpace.exp ((τ : ℂ) • G) * N) - φ (M * NormedSpace.exp ((τ : ℂ) • K) * N)‖ ≤ c * τ := by
  let _ : NormedAlgebra ℝ (Sup n) := NormedAlgebra.restrictScalars ℝ ℂ _
  have hd : ∀ s : ℝ, HasDerivAt (fun s : ℝ => φ (M * (NormedSpace.exp ((τ - s) • K) * NormedSpace.exp (s • G)) * N))
      (φ (M * NormedSpace.exp ((τ - s) • K) * (G - K) * (NormedSpace.exp (s • G) * N))) s := by
    intro s
    have h1 : HasDerivAt (fun s : ℝ => NormedSpace.exp (s • G)) (G * NormedSpace.exp (s • G)) s := hasDerivAt_exp_smul_const' G s
    have h2 := (expBack_deriv K τ s).fun_mul h1
    refine (φ.hasFDerivAt.comp_hasDerivAt s ((h2.const_mul M).mul_const N)).congr_deriv ?_
    congr 1
    noncomm_ring
  have key := norm_image_sub_le_of_norm_deriv_right_le_segment (C := c) (a := 0) (b := τ)
    (fun s _ => (hd s).continuousAt.continuousWithinAt) (fun s _ => (hd s).hasDerivWithinAt)
    (fun s hs => by
      refine h _ _ (hM.mul ?_) (Channel.mul ?_ hN)
      · have := hK (τ - s) (sub_nonneg.2 hs.2.le)
        rwa [Complex.coe_smul] at this
      · have := hG s hs.1
        rwa [Complex.coe_smul] at this) τ ⟨hτ, le_rfl⟩
  simp only [sub_self, zero_smul, NormedSpace.exp_zero, one_mul, mul_one, sub_zero] at key
  rw [Complex.coe_smul, Complex.coe_smul]
  exact key

/-- All time steps. -/
theorem insensitive_foldl {α E : Type} [NormedAddCommGroup E] [NormedSpace ℝ E] {φ : Sup n →L[ℝ] E} (P Q : α → Sup n) (b : α → ℝ) :
    ∀ (l : List α) (F : Sup n), Channel F → (∀ a ∈ l, Channel (P a) ∧ Channel (Q a) ∧
      ∀ M N : Sup n, Channel M → Channel N → ‖φ (M * P a * N) - φ (M * Q a * N)‖ ≤ b a) →
    ‖φ ((l.map P).foldl (fun F P => P * F) F) - φ ((l.map Q).foldl (fun F P => P * F) F)‖ ≤ (l.map b).sum := by
  intro l
  induction l with
  | nil => intro F _ _; simp
  | cons a l ih =>
    intro F hF h
    obtain ⟨hP, hQ, hb⟩ := h a (by simp)
    simp only [List.map_cons, List.foldl_cons, List.sum_cons]
    have h1 := ih (P a * F) (hP.mul hF) fun a' ha' => h a' (by simp [ha'])
    have h2 := hb ((l.map Q).foldl (fun F P => P * F) 1) F (Channel.foldl (fun M hM => by
      obtain ⟨a', ha', rfl⟩ := List.mem_map.1 hM
      exact (h a' (by simp [ha'])).2.1) .one) hF
    rw [Matrix.mul_assoc, Matrix.mul_assoc, ← foldl_right, ← foldl_right] at h2
    calc _ ≤ _ := norm_sub_le_norm_sub_add_norm_sub _ (φ ((l.map Q).foldl (fun F P => P * F) (P a * F))) _
      _ ≤ (l.map b).sum + b a := add_le_add h1 h2
      _ = _ := add_comm _ _

/-! ### The difference of two generators -/

/-- The super operator `ρ ↦ Z ρ + ρ Z†`. -/
noncomputable def cross (Z : Matrix n n ℂ) : Sup n := unitarySup (1 + Z) - unitarySup 1 - unitarySup Z

theorem cross_mulVec (Z ρ : Matrix n n ℂ) : cross Z *ᵥ vec ρ = vec (Z * ρ + ρ * Zᴴ) := by
  unfold cross
  simp only [Matrix.sub_mulVec, unitarySup_mulVec]
  have : (1 + Z) * ρ * (1 + Z)ᴴ = 1 * ρ * 1ᴴ + Z * ρ * Zᴴ + (Z * ρ + ρ * Zᴴ) := by
    rw [Matrix.conjTranspose_add, Matrix.conjTranspose_one]
    noncomm_ring
  rw [this]
  ext q
  simp [vec]
  ring

/-- Two generators of Lindblad form with the same operators. -/
theorem generator_sub {G K : Sup n} {H H' : Matrix n n ℂ} (hH : H.IsHermitian) (hH' : H'.IsHermitian) (ws vs : List (ℝ × Matrix n n ℂ))
    (hG : ∀ ρ, G *ᵥ vec ρ = vec (master H ws ρ)) (hK : ∀ ρ, K *ᵥ vec ρ = vec (master H' vs ρ)) :
    G - K = cross (driftPart H ws - driftPart H' vs) + (jumpPart ws - jumpPart vs) := by
  refine matrix_ext_mulVec fun ρ => ?_
  rw [Matrix.sub_mulVec, hG, hK, Matrix.add_mulVec, cross_mulVec, Matrix.sub_mulVec, jumpPart_mulVec, jumpPart_mulVec, master_eq hH,
    master_eq hH']
  ext q
  simp [vec, Matrix.sub_mul, Matrix.mul_sub]
  ring

/-! ### Fidelities -/

/-- The overlaps of all Kraus operators of one operation before and one after the matrix `X`. -/
noncomputable def overlaps (cs : Option (List n)) (T : Matrix (CompIdx cs) (CompIdx cs) ℂ) {m₁ m₂ : Nat} (A : Fin m₁ → Matrix n n ℂ)
    (B : Fin m₂ → Matrix n n ℂ) (X : Matrix n n ℂ) : EuclideanSpace ℂ (Fin m₁ × Fin m₂) :=
  WithLp.toLp 2 fun q => ov cs T (B q.2 * X * A q.1) / dim cs

theorem overlaps_add (cs : Option (List n)) (T : Matrix (CompIdx cs) (CompIdx cs) ℂ) {m₁ m₂ : Nat} (A : Fin m₁ → Matrix n n ℂ)
    (B : Fin m₂ → Matrix n n ℂ) (X Y : Matrix n n ℂ) : overlaps cs T A B (X + Y) = overlaps cs T A B X + overlaps cs T A B Y := by
  ext q
  simp [overlaps, ov, Matrix.mul_add, Matrix.add_mul, add_div]

theorem entFidSup_overlaps (cs : Option (List n)) (hcs : ∀ l, cs = some l → l.Nodup) (T : Matrix (CompIdx cs) (CompIdx cs) ℂ)
    {m₁ m₂ : Nat} (A : Fin m₁ → Matrix n n ℂ) (B : Fin m₂ → Matrix n n ℂ) (X : Matrix n n ℂ) :
    entFidSup cs T ((∑ s, Solver.unitarySup (B s)) * Solver.unitarySup X * ∑ r, Solver.unitarySup (A r)) =
      ‖overlaps cs T A B X‖ ^ 2 := by
  have e : (∑ s, Solver.unitarySup (B s)) * Solver.unitarySup X = ∑ s, Solver.unitarySup (B s * X) := by
    rw [Matrix.sum_mul]
    exact Finset.sum_congr rfl fun s _ => (unitarySup_mul _ _).symm
  rw [e, entFidSup_kraus_mul cs hcs, EuclideanSpace.norm_sq_eq, Finset.sum_div, Finset.sum_div]
  refine Finset.sum_congr rfl fun q _ => ?_
  show _ = ‖ov cs T (B q.2 * X * A q.1) / dim cs‖ ^ 2
  rw [norm_div, div_pow, Complex.norm_real, Real.norm_of_nonneg (dim_pos cs), sq (dim cs), div_div]

theorem embedding_norm (cs : Option (List n)) (hcs : ∀ l, cs = some l → l.Nodup) : ‖embedding cs‖ ≤ 1 := by
  have h := Matrix.l2_opNorm_conjTranspose_mul_self (embedding cs)
  rw [embedding_isometry cs hcs] at h
  nlinarith [norm_nonneg (embedding cs), norm_one_le (k := CompIdx cs)]

/-- The overlaps are bounded by the norm of the matrix. -/
theorem overlaps_le (cs : Option (List n)) (hcs : ∀ l, cs = some l → l.Nodup) {T : Matrix (CompIdx cs) (CompIdx cs) ℂ}
    (hT : T ∈ Matrix.unitaryGroup (CompIdx cs) ℂ) {m₁ m₂ : Nat} {A : Fin m₁ → Matrix n n ℂ} {B : Fin m₂ → Matrix n n ℂ}
    (hA : ∑ r, (A r)ᴴ * A r = 1) (hB : ∑ s, (B s)ᴴ * B s = 1) (X : Matrix n n ℂ) : ‖overlaps cs T A B X‖ ≤ ‖X‖ := by
  refine (sq_le_sq₀ (norm_nonneg _) (norm_nonneg _)).mp ?_
  set E := embedding cs with hE
  have hEE : Eᴴ * E = 1 := embedding_isometry cs hcs
  have hone : (1 : Matrix (CompIdx cs) (CompIdx cs) ℂ).trace = ((dim cs : ℝ) : ℂ) := by
    rw [Matrix.trace_one]
    simp [dim]
  have e1 : Tᴴ * T = 1 := Matrix.mem_unitaryGroup_iff'.mp hT
  have hT1 : ‖fam fun _ : Unit => E * T‖ ^ 2 = dim cs := by
    refine fam_norm _ _ ?_
    have : (E * T)ᴴ * (E * T) = Tᴴ * (Eᴴ * E) * T := by simp only [Matrix.conjTranspose_mul, Matrix.mul_assoc]
    simp only [Finset.univ_unique, Finset.sum_singleton]
    rw [this, hEE, Matrix.mul_one, e1, hone]
  have hq : ∀ q : Fin m₁ × Fin m₂, ‖ov cs T (B q.2 * X * A q.1)‖ ^ 2 ≤
      dim cs * (((B q.2 * X * A q.1 * E)ᴴ * (B q.2 * X * A q.1 * E)).trace).re := by
    intro q
    have h1 := norm_inner_le_norm (𝕜 := ℂ) (fam fun _ : Unit => E * T) (fam fun _ : Unit => B q.2 * X * A q.1 * E)
    have h2 : ‖fam fun _ : Unit => B q.2 * X * A q.1 * E‖ ^ 2 = (((B q.2 * X * A q.1 * E)ᴴ * (B q.2 * X * A q.1 * E)).trace).re := by
      have h3 := @inner_self_eq_norm_sq_to_K ℂ _ _ _ _ (fam fun _ : Unit => B q.2 * X * A q.1 * E)
      rw [fam_inner] at h3
      simp only [Finset.univ_unique, Finset.sum_singleton] at h3
      rw [h3]
      norm_cast
    rw [fam_inner] at h1
    simp only [Finset.univ_unique, Finset.sum_singleton] at h1
    have := pow_le_pow_left₀ (norm_nonneg _) h1 2
    rw [mul_pow, hT1, h2] at this
    exact this
  have hsum : ∑ q : Fin m₁ × Fin m₂, ((B q.2 * X * A q.1 * E)ᴴ * (B q.2 * X * A q.1 * E)).trace =
      (Eᴴ * (∑ r, (A r)ᴴ * (Xᴴ * X) * A r) * E).trace := by
    rw [Fintype.sum_prod_type, Matrix.mul_sum, Matrix.sum_mul, Matrix.trace_sum]
    refine Finset.sum_congr rfl fun r _ => ?_
    have e : ∀ s, ((B s * X * A r * E)ᴴ * (B s * X * A r * E)).trace = (Eᴴ * ((A r)ᴴ * (Xᴴ * ((B s)ᴴ * B s) * X) * A r) * E).trace := by
      intro s
      simp only [Matrix.conjTranspose_mul, Matrix.mul_assoc]
    rw [Finset.sum_congr rfl fun s _ => e s, ← Matrix.trace_sum, ← Matrix.sum_mul, ← Matrix.mul_sum, ← Matrix.sum_mul, ← Matrix.mul_sum,
      ← Matrix.sum_mul, ← Matrix.mul_sum, hB, Matrix.mul_one]
  have htr : (Eᴴ * (∑ r, (A r)ᴴ * (Xᴴ * X) * A r) * E).trace.re ≤ dim cs * ‖X‖ ^ 2 := by
    refine (Complex.re_le_norm _).trans ((trace_norm_le _).trans (mul_le_mul_of_nonneg_left ?_ (dim_pos cs)))
    have h1 := kraus_norm hA (Xᴴ * X)
    rw [Matrix.l2_opNorm_conjTranspose_mul_self, ← sq] at h1
    have h2 : ‖Eᴴ‖ ≤ 1 := by rw [Matrix.l2_opNorm_conjTranspose]; exact embedding_norm cs hcs
    calc _ ≤ ‖Eᴴ * (∑ r, (A r)ᴴ * (Xᴴ * X) * A r)‖ * ‖E‖ := Matrix.l2_opNorm_mul _ _
      _ ≤ ‖Eᴴ‖ * ‖∑ r, (A r)ᴴ * (Xᴴ * X) * A r‖ * ‖E‖ := mul_le_mul_of_nonneg_right (Matrix.l2_opNorm_mul _ _) (norm_nonneg _)
      _ ≤ 1 * ‖X‖ ^ 2 * 1 := by
        refine mul_le_mul (mul_le_mul h2 h1 (norm_nonneg _) zero_le_one) (embedding_norm cs hcs) (norm_nonneg _) (by positivity)
      _ = _ := by ring
  rw [EuclideanSpace.norm_sq_eq]
  have hterm : ∀ q : Fin m₁ × Fin m₂, ‖(overlaps cs T A B X) q‖ ^ 2 = ‖ov cs T (B q.2 * X * A q.1)‖ ^ 2 / (dim cs * dim cs) := by
    intro q
    show ‖ov cs T (B q.2 * X * A q.1) / dim cs‖ ^ 2 = _
    rw [norm_div, div_pow, Complex.norm_real, Real.norm_of_nonneg (dim_pos cs), sq (dim cs)]
  rw [Finset.sum_congr rfl fun q _ => hterm q, ← Finset.sum_div]
  have hle : ∑ q : Fin m₁ × Fin m₂, ‖ov cs T (B q.2 * X * A q.1)‖ ^ 2 ≤ dim cs * (dim cs * ‖X‖ ^ 2) := by
    refine (Finset.sum_le_sum fun q _ => hq q).trans ?_
    rw [← Finset.mul_sum, ← Complex.re_sum, hsum]
    exact mul_le_mul_of_nonneg_left htr (dim_pos cs)
  rcases (dim_pos cs).eq_or_lt with h0 | h0
  · rw [← h0]
    simp
  · rw [div_le_iff₀ (by positivity)]
    linarith

/-- The fidelity as a functional. -/
noncomputable def fidL (cs : Option (List n)) (T : Matrix (CompIdx cs) (CompIdx cs) ℂ) : Sup n →L[ℝ] ℝ :=
  LinearMap.toContinuousLinearMap
    { toFun := fun M => entFidSup cs T M
      map_add' := fun M N => by cases cs <;> simp [entFidSup, Matrix.mul_add, add_div]
      map_smul' := fun r M => by
        cases cs <;> simp [entFidSup, mul_div_assoc] }

theorem fidL_apply (cs : Option (List n)) (T : Matrix (CompIdx cs) (CompIdx cs) ℂ) (M : Sup n) : fidL cs T M = entFidSup cs T M := rfl

/-- Half of the effect of different rates. -/
noncomputable def rateGap (Ls : List (Matrix n n ℂ)) (w v : List ℝ) : ℝ :=
  (((w.zip v).zip Ls).map fun q => |q.1.1 - q.1.2| * ‖q.2‖ ^ 2).sum

theorem mismatch_eq (Ls : List (Matrix n n ℂ)) (H K : Matrix n n ℂ) (w v : List ℝ) :
    mismatch Ls H K w v = 2 * ‖H - K‖ + 2 * rateGap Ls w v := by
  unfold mismatch rateGap
  rw [← List.sum_map_mul_left]
  congr 3
  ext q
  ring

theorem driftPart_sub_le (Ls : List (Matrix n n ℂ)) (H K : Matrix n n ℂ) {w v : List ℝ} (hw : w.length = Ls.length)
    (hv : v.length = Ls.length) : ‖driftPart H (w.zip Ls) - driftPart K (v.zip Ls)‖ ≤ ‖H - K‖ + 1 / 2 * rateGap Ls w v := by
  have hs : ‖((w.zip Ls).map fun p => (p.1 : ℂ) • (p.2ᴴ * p.2)).sum - ((v.zip Ls).map fun p => (p.1 : ℂ) • (p.2ᴴ * p.2)).sum‖ ≤
      rateGap Ls w v := by
    induction Ls generalizing w v with
    | nil => simp [rateGap]
    | cons L Ls ih =>
      obtain ⟨a, w, rfl⟩ := List.exists_cons_of_length_eq_add_one hw
      obtain ⟨b, v, rfl⟩ := List.exists_cons_of_length_eq_add_one hv
      have := ih (w := w) (v := v) (by simpa using hw) (by simpa using hv)
      unfold rateGap at this ⊢
      simp only [List.zip_cons_cons, List.map_cons, List.sum_cons]
      have e : ∀ X Y : Matrix n n ℂ, (a : ℂ) • (Lᴴ * L) + X - ((b : ℂ) • (Lᴴ * L) + Y) = ((a - b : ℝ) : ℂ) • (Lᴴ * L) + (X - Y) := by
        intro X Y
        rw [Complex.ofReal_sub, sub_smul]
        abel
      rw [e]
      refine (norm_add_le _ _).trans (add_le_add (le_of_eq ?_) this)
      rw [norm_smul, Complex.norm_real, Real.norm_eq_abs, Matrix.l2_opNorm_conjTranspose_mul_self, sq]
  unfold driftPart
  have e : ∀ S S' : Matrix n n ℂ, (-Complex.I) • H - (1 / 2 : ℂ) • S - ((-Complex.I) • K - (1 / 2 : ℂ) • S') =
      (-Complex.I) • (H - K) - (1 / 2 : ℂ) • (S - S') := by
    intro S S'
    module
  rw [e]
  refine (norm_sub_le _ _).trans (add_le_add (le_of_eq ?_) ?_)
  · rw [norm_smul, norm_neg, Complex.norm_I, one_mul]
  · rw [norm_smul, show ‖(1 / 2 : ℂ)‖ = 1 / 2 by norm_num]
    exact mul_le_mul_of_nonneg_left hs (by norm_num)

/-- Fidelities are not sensitive to small changes of Hamiltonians and rates. -/
theorem fid_insensitive (cs : Option (List n)) (hcs : ∀ l, cs = some l → l.Nodup) {T : Matrix (CompIdx cs) (CompIdx cs) ℂ}
    (hT : T ∈ Matrix.unitaryGroup (CompIdx cs) ℂ) {G K : Sup n} {H H' : Matrix n n ℂ} (hH : H.IsHermitian) (hH' : H'.IsHermitian)
    (Ls : List (Matrix n n ℂ)) {w v : List ℝ} (hw : w.length = Ls.length) (hv : v.length = Ls.length)
    (hG : ∀ ρ, G *ᵥ vec ρ = vec (master H (w.zip Ls) ρ)) (hK : ∀ ρ, K *ᵥ vec ρ = vec (master H' (v.zip Ls) ρ)) :
    Insensitive (fidL cs T) (G - K) (mismatch Ls H H' w v) := by
  intro M N hM hN
  obtain ⟨m₂, B, rfl⟩ := hM.1.kraus
  obtain ⟨m₁, A, rfl⟩ := hN.1.kraus
  have hB := kraus_complete B hM.2
  have hA := kraus_complete A hN.2
  have hle := overlaps_le cs hcs hT hA hB
  have hval : ∀ X, fidL cs T ((∑ r, unitarySup (B r)) * unitarySup X * ∑ r, unitarySup (A r)) = ‖overlaps cs T A B X‖ ^ 2 :=
    fun X => entFidSup_overlaps cs hcs T A B X
  generalize (∑ r, unitarySup (B r)) = M at hval ⊢
  generalize (∑ r, unitarySup (A r)) = N at hval ⊢
  have hcross : ∀ Z : Matrix n n ℂ, ‖fidL cs T (M * cross Z * N)‖ ≤ 2 * ‖Z‖ := by
    intro Z
    have e : M * cross Z * N = M * unitarySup (1 + Z) * N - M * unitarySup 1 * N - M * unitarySup Z * N := by
      unfold cross
      noncomm_ring
    rw [e, map_sub, map_sub, hval, hval, hval, overlaps_add, @norm_add_sq ℂ]
    have h1 : ‖overlaps cs T A B 1‖ ≤ 1 := (hle 1).trans norm_one_le
    have h2 := norm_inner_le_norm (𝕜 := ℂ) (overlaps cs T A B 1) (overlaps cs T A B Z)
    have h3 := RCLike.abs_re_le_norm (inner ℂ (overlaps cs T A B 1) (overlaps cs T A B Z))
    have h4 := hle Z
    rw [Real.norm_eq_abs, show ∀ a b c : ℝ, a + 2 * b + c - a - c = 2 * b by intro a b c; ring, abs_mul, abs_two]
    refine mul_le_mul_of_nonneg_left (h3.trans (h2.trans ?_)) zero_le_two
    calc _ ≤ 1 * ‖Z‖ := mul_le_mul h1 h4 (norm_nonneg _) zero_le_one
      _ = _ := one_mul _
  have hjump : ‖fidL cs T (M * (jumpPart (w.zip Ls) - jumpPart (v.zip Ls)) * N)‖ ≤ rateGap Ls w v := by
    clear hG hK
    induction Ls generalizing w v with
    | nil => simp [rateGap]
    | cons L Ls ih =>
      obtain ⟨a, w, rfl⟩ := List.exists_cons_of_length_eq_add_one hw
      obtain ⟨b, v, rfl⟩ := List.exists_cons_of_length_eq_add_one hv
      have := ih (w := w) (v := v) (by simpa using hw) (by simpa using hv)
      unfold rateGap jumpPart at this ⊢
      simp only [List.zip_cons_cons, List.map_cons, List.sum_cons]
      have e : ∀ X Y : Sup n, M * ((a : ℂ) • unitarySup L + X - ((b : ℂ) • unitarySup L + Y)) * N =
          (a - b) • (M * unitarySup L * N) + M * (X - Y) * N := by
        intro X Y
        have h1 : (a : ℂ) • unitarySup L + X - ((b : ℂ) • unitarySup L + Y) = (((a - b : ℝ) : ℂ)) • unitarySup L + (X - Y) := by
          rw [Complex.ofReal_sub, sub_smul]
          abel
        rw [h1, Matrix.mul_add, Matrix.add_mul, Matrix.mul_smul, Matrix.smul_mul, Complex.coe_smul]
      rw [e, map_add, map_smul, hval]
      refine (norm_add_le _ _).trans (add_le_add ?_ this)
      rw [norm_smul, Real.norm_eq_abs, Real.norm_of_nonneg (by positivity)]
      exact mul_le_mul_of_nonneg_left (pow_le_pow_left₀ (norm_nonneg _) (hle L) 2) (abs_nonneg _)
  rw [generator_sub hH hH' _ _ hG hK, Matrix.mul_add, Matrix.add_mul, map_add, mismatch_eq]
  refine (norm_add_le _ _).trans ?_
  have h1 := hcross (driftPart H (w.zip Ls) - driftPart H' (v.zip Ls))
  have h2 := driftPart_sub_le Ls H H' hw hv
  linarith

/-- Expectation values as functionals of the operation. -/
noncomputable def valueL (A ρ : Matrix n n ℂ) : Sup n →L[ℝ] ℂ :=
  LinearMap.toContinuousLinearMap
    { toFun := fun M => (A * unvec (M *ᵥ vec ρ)).trace
      map_add' := fun M N => by
        rw [← Matrix.trace_add, ← Matrix.mul_add, Matrix.add_mulVec]
        rfl
      map_smul' := fun r M => by
        rw [RingHom.id_apply, ← Matrix.trace_smul, ← Matrix.mul_smul, Matrix.smul_mulVec]
        rfl }

theorem value_insensitive (A : Matrix n n ℂ) {ρ : Matrix n n ℂ} (hρ : ρ.PosSemidef) (h1 : ρ.trace = 1) {G K : Sup n}
    {H H' : Matrix n n ℂ} (Ls : List (Matrix n n ℂ)) {w v : List ℝ} (hw : w.length = Ls.length) (hv : v.length = Ls.length)
    (hG : ∀ ρ, G *ᵥ vec ρ = vec (master H (w.zip Ls) ρ)) (hK : ∀ ρ, K *ᵥ vec ρ = vec (master H' (v.zip Ls) ρ)) :
    Insensitive (valueL A ρ) (G - K) (‖A‖ * mismatch Ls H H' w v) := by
  intro M N hM hN
  obtain ⟨B, hB, hBX⟩ := dual_observable hM.1 hM.2 A
  obtain ⟨ρ', e1, e2, -⟩ := hN.2 ρ
  have hρ' : ρ'.PosSemidef := by
    obtain ⟨ρ'', k1, k2⟩ := hN.1.positive ρ hρ
    rw [e1] at k1
    have : ρ' = ρ'' := congrArg unvec k1
    rwa [this]
  show ‖(A * unvec ((M * (G - K) * N) *ᵥ vec ρ)).trace‖ ≤ _
  rw [← Matrix.mulVec_mulVec, e1, ← Matrix.mulVec_mulVec, Matrix.sub_mulVec, hG, hK,
    show vec (master H (w.zip Ls) ρ') - vec (master H' (v.zip Ls) ρ') = vec (master H (w.zip Ls) ρ' - master H' (v.zip Ls) ρ') from rfl, hBX]
  exact (trace_master_sub B hρ' (e2.trans h1) H H' Ls w v hw hv).trans (mul_le_mul_of_nonneg_right hB (mismatch_nonneg _ _ _ _ _))

/-! ### The runs -/

theorem OpenOk.weights {p : LPar n} {Ls : List (Matrix n n ℂ)} {times : List ℝ} {u x : Pulse} (h : OpenOk p Ls times u x)
    (t : Fin times.length) : (weightsAt p Ls u x t).length = Ls.length ∧ ∀ r ∈ weightsAt p Ls u x t, 0 ≤ r := by
  unfold weightsAt
  cases hp : p.diss.prefactor with
  | none => exact ⟨by simp, fun r hr => by rw [List.eq_of_mem_replicate hr]; exact zero_le_one⟩
  | some g =>
    obtain ⟨k1, k2⟩ := h.lindblads.2.2.2 g hp
    have : (t : Nat) < (g u x).length := by rw [k1]; exact t.2
    show ((g u x).getD t []).length = _ ∧ ∀ r ∈ (g u x).getD t [], 0 ≤ r
    rw [List.getD_eq_getElem _ _ this]
    exact ⟨k2 _ (List.getElem_mem this), h.rates g hp _ (List.getElem_mem this)⟩

theorem OpenOk.run {p : LPar n} {Ls : List (Matrix n n ℂ)} {times : List ℝ} {u x : Pulse} (h : OpenOk p Ls times u x) :
    ∃ (G : Fin times.length → Sup n) (f : List (Sup n)), p.fwd times u x = .ok f ∧ f.length = times.length + 1 ∧
      (∀ t ≤ times.length, f[t]? = some ((((List.finRange times.length).take t).map fun t =>
        NormedSpace.exp (((times[t] : ℝ) : ℂ) • G t)).foldl (fun F P => P * F) 1)) ∧
      (∀ t, (LPar.hamAt p u t).IsHermitian) ∧
      (∀ (t : Fin times.length) (ρ : Matrix n n ℂ), G t *ᵥ vec ρ =
        vec (master (LPar.hamAt p u t) ((weightsAt p Ls u x t).zip Ls) ρ)) ∧
      ∀ (t : Fin times.length) (s : ℝ), 0 ≤ s → Channel (NormedSpace.exp ((s : ℂ) • G t)) := by
  obtain ⟨G, f, h1, h2, h3, h4⟩ := LPar.gens_fin p Ls times u x h.lindblads h.nonempty h.drift h.pulse h.rows h.driftH h.ctrlH h.method
    h.expm h.init
  have hham : ∀ t : Fin times.length, LPar.hamAt p u t = hamiltonian (p.drift[t]'(by rw [h.drift]; exact t.2)) p.ctrl
      (u[t]'(by rw [h.pulse]; exact t.2)) := by
    intro t
    unfold LPar.hamAt
    rw [List.getD_eq_getElem p.drift _ (by rw [h.drift]; exact t.2), List.getD_eq_getElem u _ (by rw [h.pulse]; exact t.2)]
    rfl
  have hH : ∀ t, (LPar.hamAt p u t).IsHermitian := by
    intro t
    refine hamiltonian_isHermitian _ ?_ h.ctrlH
    rw [List.getD_eq_getElem?_getD]
    cases hd : p.drift[t]? with
    | none => exact Matrix.isHermitian_zero
    | some D => exact h.driftH _ (List.mem_of_getElem? hd)
  have hG : ∀ (t : Fin times.length) (ρ : Matrix n n ℂ), G t *ᵥ vec ρ =
      vec (master (LPar.hamAt p u t) ((weightsAt p Ls u x t).zip Ls) ρ) := fun t ρ => by rw [hham]; exact h4 t ρ
  refine ⟨G, f, h1, h2, fun t ht => ?_, hH, hG, fun t s hs => ?_⟩
  · rw [h3 t ht, List.ofFn_eq_map, List.map_take]
  · exact ⟨cp_exp (hH t) _ (fun q hq => (h.weights t).2 _ (List.of_mem_zip hq).1) (hG t) s hs, physical_exp (hH t) _ (hG t) s⟩

/-- Two runs, seen by a functional. -/
theorem two_runs {E : Type} [NormedAddCommGroup E] [NormedSpace ℝ E] (φ : Sup n →L[ℝ] E) {p q : LPar n} {Ls : List (Matrix n n ℂ)}
    {times : List ℝ} {u x v y : Pulse} (hp : OpenOk p Ls times u x) (hq : OpenOk q Ls times v y) (C : ℝ)
    (hφ : ∀ (t : Fin times.length) (G K : Sup n),
      (∀ ρ, G *ᵥ vec ρ = vec (master (LPar.hamAt p u t) ((weightsAt p Ls u x t).zip Ls) ρ)) →
      (∀ ρ, K *ᵥ vec ρ = vec (master (LPar.hamAt q v t) ((weightsAt q Ls v y t).zip Ls) ρ)) →
      (LPar.hamAt p u t).IsHermitian → (LPar.hamAt q v t).IsHermitian →
      Insensitive φ (G - K) (C * mismatch Ls (LPar.hamAt p u t) (LPar.hamAt q v t) (weightsAt p Ls u x t) (weightsAt q Ls v y t))) :
    ∃ f g, p.fwd times u x = .ok f ∧ q.fwd times v y = .ok g ∧ f.length = times.length + 1 ∧ g.length = times.length + 1 ∧
      ∀ m ≤ times.length, ∃ F F', f[m]? = some F ∧ g[m]? = some F' ∧ ‖φ F - φ F'‖ ≤ C * ∑ t : Fin times.length,
        if (t : Nat) < m then times[t] * mismatch Ls (LPar.hamAt p u t) (LPar.hamAt q v t) (weightsAt p Ls u x t) (weightsAt q Ls v y t)
        else 0 := by
  obtain ⟨G, f, a1, a2, a3, a4, a5, a6⟩ := hp.run
  obtain ⟨K, g, b1, b2, b3, b4, b5, b6⟩ := hq.run
  refine ⟨f, g, a1, b1, a2, b2, fun m hm => ⟨_, _, a3 m hm, b3 m hm, ?_⟩⟩
  have hτ : ∀ t : Fin times.length, 0 ≤ times[t] := fun t => hp.durations _ (List.getElem_mem _)
  have key := insensitive_foldl (φ := φ) (fun t => NormedSpace.exp (((times[t] : ℝ) : ℂ) • G t))
    (fun t => NormedSpace.exp (((times[t] : ℝ) : ℂ) • K t))
    (fun t : Fin times.length => C * mismatch Ls (LPar.hamAt p u t) (LPar.hamAt q v t) (weightsAt p Ls u x t) (weightsAt q Ls v y t) *
      times[t]) ((List.finRange times.length).take m) 1 .one
    (fun t _ => ⟨a6 t _ (hτ t), b6 t _ (hτ t), fun M N hM hN =>
      (hφ t (G t) (K t) (a5 t) (b5 t) (a4 t) (b4 t)).step (hτ t) (a6 t) (b6 t) hM hN⟩)
  refine key.trans (le_of_eq ?_)
  rw [Finset.mul_sum, ← List.sum_ofFn, List.ofFn_eq_map]
  conv_rhs => rw [← List.take_append_drop m (List.finRange times.length), List.map_append, List.sum_append]
  have e1 : ((List.finRange times.length).drop m).map (fun t : Fin times.length => C * if (t : Nat) < m then times[t] * mismatch Ls
      (LPar.hamAt p u t) (LPar.hamAt q v t) (weightsAt p Ls u x t) (weightsAt q Ls v y t) else 0) =
      ((List.finRange times.length).drop m).map fun _ => 0 := by
    refine List.map_congr_left fun t ht => ?_
    obtain ⟨i, hi, rfl⟩ := List.getElem_of_mem ht
    rw [if_neg (by simp), mul_zero]
  have e2 : ((List.finRange times.length).take m).map (fun t : Fin times.length => C * if (t : Nat) < m then times[t] * mismatch Ls
      (LPar.hamAt p u t) (LPar.hamAt q v t) (weightsAt p Ls u x t) (weightsAt q Ls v y t) else 0) =
      ((List.finRange times.length).take m).map fun t : Fin times.length => C * mismatch Ls (LPar.hamAt p u t) (LPar.hamAt q v t)
        (weightsAt p Ls u x t) (weightsAt q Ls v y t) * times[t] := by
    refine List.map_congr_left fun t ht => ?_
    obtain ⟨i, hi, rfl⟩ := List.getElem_of_mem ht
    rw [if_pos (by simp at hi ⊢; omega)]
    ring
  rw [e1, e2]
  simp

/-! ## C152 -/

/-- **C152** Two descriptions of an open system with different Hamiltonians, pulses or rates: the infidelities differ by at most the time
integral of the mismatch. -/
theorem c152_infidelity (p q : LPar n) (Ls : List (Matrix n n ℂ)) (times : List ℝ) (u x v y : Pulse) (hp : OpenOk p Ls times u x)
    (hq : OpenOk q Ls times v y) (cs : Option (List n)) (hcs : ∀ l, cs = some l → l.Nodup) (T : Matrix (CompIdx cs) (CompIdx cs) ℂ)
    (hT : T ∈ Matrix.unitaryGroup (CompIdx cs) ℂ) :
    ∃ c c' : ℝ, lindCosts cs T p times u x = .ok c ∧ lindCosts cs T q times v y = .ok c' ∧ |c - c'| ≤ distance Ls times p u x q v y := by
  obtain ⟨f, g, h1, h2, h3, h4, h5⟩ := two_runs (fidL cs T) hp hq 1 fun t G K hG hK hH hH' => by
    rw [one_mul]
    exact fid_insensitive cs hcs hT hH hH' Ls (hp.weights t).1 (hq.weights t).1 hG hK
  obtain ⟨F, F', e1, e2, e3⟩ := h5 times.length le_rfl
  refine ⟨1 - entFidSup cs T F, 1 - entFidSup cs T F', ?_, ?_, ?_⟩
  · unfold lindCosts opCostsSup
    rw [h1]
    simp only [bind, Except.bind]
    rw [last_ok (l := f) (by rw [List.getLast?_eq_getElem?, h3]; exact e1)]
    rfl
  · unfold lindCosts opCostsSup
    rw [h2]
    simp only [bind, Except.bind]
    rw [last_ok (l := g) (by rw [List.getLast?_eq_getElem?, h4]; exact e2)]
    rfl
  · rw [show 1 - entFidSup cs T F - (1 - entFidSup cs T F') = -(fidL cs T F - fidL cs T F') by rw [fidL_apply, fidL_apply]; ring, abs_neg]
    refine e3.trans (le_of_eq ?_)
    rw [one_mul]
    unfold distance
    exact Finset.sum_congr rfl fun t _ => if_pos t.2

/-- **C152** The expectation values of every observable in every state differ by at most `‖A‖` times the mismatch so far. -/
theorem c152_observables (p q : LPar n) (Ls : List (Matrix n n ℂ)) (times : List ℝ) (u x v y : Pulse) (hp : OpenOk p Ls times u x)
    (hq : OpenOk q Ls times v y) :
    ∃ f g, p.fwd times u x = .ok f ∧ q.fwd times v y = .ok g ∧ f.length = times.length + 1 ∧ g.length = times.length + 1 ∧
      ∀ m ≤ times.length, ∀ (A ρ : Matrix n n ℂ), ρ.PosSemidef → ρ.trace = 1 →
        ‖(A * stateAt f m ρ).trace - (A * stateAt g m ρ).trace‖ ≤ ‖A‖ * ∑ t : Fin times.length, if (t : Nat) < m then
          times[t] * mismatch Ls (LPar.hamAt p u t) (LPar.hamAt q v t) (weightsAt p Ls u x t) (weightsAt q Ls v y t) else 0 := by
  obtain ⟨-, f, a1, a2, -⟩ := hp.run
  obtain ⟨-, g, b1, b2, -⟩ := hq.run
  refine ⟨f, g, a1, b1, a2, b2, fun m hm A ρ hρ hρ1 => ?_⟩
  obtain ⟨f', g', h1, h2, h3, h4, h5⟩ := two_runs (valueL A ρ) hp hq ‖A‖ fun t G K hG hK _ _ =>
    value_insensitive A hρ hρ1 Ls (hp.weights t).1 (hq.weights t).1 hG hK
  cases Except.ok.inj (a1.symm.trans h1)
  cases Except.ok.inj (b1.symm.trans h2)
  obtain ⟨F, F', e1, e2, e3⟩ := h5 m hm
  unfold stateAt
  rw [List.getD_eq_getElem?_getD, List.getD_eq_getElem?_getD, e1, e2]
  exact e3

theorem hamiltonian_rows_le (H₀ : Matrix n n ℂ) (ctrl : List (Matrix n n ℂ)) (a b : List ℝ) (ha : a.length = ctrl.length)
    (hb : b.length = ctrl.length) :
    ‖hamiltonian H₀ ctrl a - hamiltonian H₀ ctrl b‖ ≤ (((a.zip b).zip ctrl).map fun q => |q.1.1 - q.1.2| * ‖q.2‖).sum := by
  unfold hamiltonian
  rw [add_sub_add_left_eq_sub]
  induction ctrl generalizing a b with
  | nil => simp
  | cons C ctrl ih =>
    obtain ⟨x, a, rfl⟩ := List.exists_cons_of_length_eq_add_one ha
    obtain ⟨y, b, rfl⟩ := List.exists_cons_of_length_eq_add_one hb
    have := ih a b (by simpa using ha) (by simpa using hb)
    simp only [List.zip_cons_cons, List.zipWith_cons_cons, List.map_cons, List.sum_cons]
    have e : ∀ X Y : Matrix n n ℂ, (x : ℂ) • C + X - ((y : ℂ) • C + Y) = ((x - y : ℝ) : ℂ) • C + (X - Y) := by
      intro X Y
      rw [Complex.ofReal_sub, sub_smul]
      abel
    rw [e]
    refine (norm_add_le _ _).trans (add_le_add (le_of_eq ?_) this)
    rw [norm_smul, Complex.norm_real, Real.norm_eq_abs]

omit [DecidableEq n] in
theorem rateGap_self [DecidableEq n] (Ls : List (Matrix n n ℂ)) (w : List ℝ) : rateGap Ls w w = 0 := by
  unfold rateGap
  refine List.sum_eq_zero fun x hx => ?_
  obtain ⟨q, hq, rfl⟩ := List.mem_map.1 hx
  have h1 := (List.of_mem_zip hq).1
  obtain ⟨i, hi, h2⟩ := List.getElem_of_mem h1
  rw [← h2, List.getElem_zip]
  simp

/-- **C152** Amplitude errors of an open system with constant rates: the infidelity changes by at most twice the sum of duration times
error times norm of the control, as in the closed system (C117). -/
theorem c152_amplitudes (p : LPar n) (Ls : List (Matrix n n ℂ)) (times : List ℝ) (u v x : Pulse) (hu : OpenOk p Ls times u x)
    (hv : OpenOk p Ls times v x) (hc : p.diss.prefactor = none) (cs : Option (List n)) (hcs : ∀ l, cs = some l → l.Nodup)
    (T : Matrix (CompIdx cs) (CompIdx cs) ℂ) (hT : T ∈ Matrix.unitaryGroup (CompIdx cs) ℂ) :
    ∃ c c' : ℝ, lindCosts cs T p times u x = .ok c ∧ lindCosts cs T p times v x = .ok c' ∧
      |c - c'| ≤ 2 * ∑ t : Fin times.length, times[t] *
        ((((u.getD t []).zip (v.getD t [])).zip p.ctrl).map fun q => |q.1.1 - q.1.2| * ‖q.2‖).sum := by
  obtain ⟨c, c', h1, h2, h3⟩ := c152_infidelity p p Ls times u x v x hu hv cs hcs T hT
  refine ⟨c, c', h1, h2, h3.trans ?_⟩
  unfold distance
  rw [Finset.mul_sum]
  refine Finset.sum_le_sum fun t _ => ?_
  have hw : weightsAt p Ls u x t = weightsAt p Ls v x t := by
    unfold weightsAt
    rw [hc]
  have hrow : ∀ {w : Pulse}, OpenOk p Ls times w x → (w.getD t []).length = p.ctrl.length := by
    intro w h
    rw [List.getD_eq_getElem w _ (by rw [h.pulse]; exact t.2)]
    exact h.rows _ (List.getElem_mem _)
  rw [hw, mismatch_eq, rateGap_self, mul_zero, add_zero, mul_left_comm]
  refine mul_le_mul_of_nonneg_left ?_ zero_le_two
  exact mul_le_mul_of_nonneg_left (hamiltonian_rows_le _ _ _ _ (hrow hu) (hrow hv)) (hu.durations _ (List.getElem_mem _))

/-- **C152** Dissipation changes the infidelity of a pulse at most by its accumulated strength: no exponential is needed in C124 if rates and
durations are not negative. -/
theorem c152_dissipation (p : LPar n) (q : SPar n n) (τ : List ℝ) (y u x : Pulse) (Ls : List (Matrix n n ℂ))
    (hdr : p.drift = q.drift) (hct : p.ctrl = q.ctrl) (hv : q.Valid τ) (hst : Stable q.cfg)
    (hu : ampsOf q.cfg τ y = some u) (hp : OpenOk p Ls (q.xTimes τ) u x)
    (hm' : q.method = .frechet) (hE' : q.L.ExpmOk) (hi' : q.init = 1) (cl : Closest) (cs : Option (List n))
    (hcs : ∀ l, cs = some l → l.Nodup) (T : Matrix (CompIdx cs) (CompIdx cs) ℂ) (hT : T ∈ Matrix.unitaryGroup (CompIdx cs) ℂ) :
    ∃ c c₀ : ℝ, lindCosts cs T p (q.xTimes τ) u x = .ok c ∧
      (costOn (opCosts cl cs T false) q.cfg (fresh q.cfg τ y)).1 = .ok c₀ ∧
      |c - c₀| ≤ dissStrength (q.xTimes τ) (weightsAt p Ls u x) Ls := by
  set times := q.xTimes τ with htimes
  set off : LPar n := { p with diss := { p.diss with prefactor := some fun _ _ => List.replicate times.length (List.replicate Ls.length 0) } }
    with hoff
  have hL : off.Lindblads Ls times u x :=
    ⟨hp.lindblads.1, hp.lindblads.2.1, hp.lindblads.2.2.1, fun f hf => by
      cases Option.some.inj hf
      exact ⟨by simp, fun row hrow => by rw [List.eq_of_mem_replicate hrow]; simp⟩⟩
  have hw : ∀ t < times.length, weightsAt off Ls u x t = List.replicate Ls.length 0 := by
    intro t ht
    show (List.replicate times.length (List.replicate Ls.length (0 : ℝ))).getD t [] = _
    rw [List.getD_eq_getElem _ _ (by simpa using ht)]
    simp
  have ho : OpenOk off Ls times u x :=
    ⟨hL, hp.nonempty, hp.drift, hp.pulse, hp.rows, hp.driftH, hp.ctrlH, hp.method, hp.expm, hp.init, hp.durations, fun f hf => by
      cases Option.some.inj hf
      intro row hrow w hw
      rw [List.eq_of_mem_replicate hrow] at hw
      rw [List.eq_of_mem_replicate hw]⟩
  have hz : ∀ t < times.length, wDiss ((weightsAt off Ls u x t).zip Ls) = 0 := by
    intro t ht
    rw [hw t ht]
    unfold wDiss
    refine List.sum_eq_zero fun D hD => ?_
    obtain ⟨q, hq, rfl⟩ := List.mem_map.1 hD
    rw [List.eq_of_mem_replicate (List.of_mem_zip hq).1]
    simp
  obtain ⟨-, f₀, -, a1, -, -, a2⟩ := c40_coherent off q τ y u x hdr hct hv hu hp.nonempty (by
    rw [calcDiss_lindblad off Ls _ u x hL]
    congr 1
    refine List.eq_replicate_iff.mpr ⟨by simp [htimes], fun D hD => ?_⟩
    obtain ⟨t, ht, rfl⟩ := List.mem_map.mp hD
    exact hz t (List.mem_range.mp ht)) hp.method hp.expm hm' hE' hp.init hi'
  obtain ⟨c, c', h1, h2, h3⟩ := c152_infidelity p off Ls times u x u x hp ho cs hcs T hT
  obtain ⟨-, f₁, b1, b2, b3, -⟩ := ho.run
  have e : f₁ = f₀.map unitarySup := Except.ok.inj (b1.symm.trans a2)
  have hlast : ∃ U, f₀.getLast? = some U := by
    cases h : f₀.getLast? with
    | some U => exact ⟨U, rfl⟩
    | none =>
      rw [List.getLast?_eq_none_iff] at h
      rw [e, h] at b2
      simp at b2
  obtain ⟨U, hU⟩ := hlast
  have hU' : f₁.getLast? = some (unitarySup U) := by rw [e, List.getLast?_map, hU]; rfl
  have hc' : c' = 1 - entFid cl cs T U false := by
    unfold lindCosts opCostsSup at h2
    rw [b1] at h2
    simp only [bind, Except.bind] at h2
    rw [last_ok hU'] at h2
    rw [← c46_super_operator cl cs hcs]
    exact (Except.ok.inj h2).symm
  refine ⟨c, c', h1, ?_, h3.trans (le_of_eq ?_)⟩
  · rw [hc']
    exact Sim.costOn_last cl cs T false _ _ a1 hU
  · unfold distance dissStrength
    have e3 : ∀ g : Nat → ℝ, ((List.range times.length).map g).sum = ∑ t : Fin times.length, g t := fun g => by
      rw [← Finset.sum_range]
      rfl
    rw [e3]
    refine Finset.sum_congr rfl fun t _ => ?_
    rw [hw t t.2, abs_of_nonneg (by rw [List.getD_eq_getElem _ _ t.2]; exact hp.durations _ (List.getElem_mem _)),
      List.getD_eq_getElem _ _ t.2]
    congr 1
    have e4 := (hp.weights t).1
    generalize weightsAt p Ls u x t = w at e4
    unfold mismatch
    rw [show LPar.hamAt off u t = LPar.hamAt p u t from rfl, sub_self, norm_zero, mul_zero, zero_add]
    clear * - e4
    induction Ls generalizing w with
    | nil => simp
    | cons L Ls ih =>
      obtain ⟨a, w, rfl⟩ := List.exists_cons_of_length_eq_add_one e4
      have := ih w (by simpa using e4)
      simp only [List.length_cons, List.replicate_succ, List.zip_cons_cons, List.map_cons, List.sum_cons, sub_zero, this]

/-- **C152** Two open subsystems whose gates were found separately, when the pair has other Hamiltonians (an interaction, crosstalk) or other
rates: the infidelity deviates from `1 - (1 - I₁) (1 - I₂)` by at most the mismatch. -/
theorem c152_crosstalk {k : Type} [Fintype k] [DecidableEq k] (p p' : LPar (n × k)) (a : LPar n) (b : LPar k) {A : List (Matrix n n ℂ)}
    {B : List (Matrix k k ℂ)} (h : OpenApart p a b A B) (ha : a.method = .frechet ∧ a.L.ExpmOk)
    (hb : b.method = .frechet ∧ b.L.ExpmOk) (hi : a.init = 1) (S : List (OpenStep n)) (S' : List (OpenStep k)) (R : List (OpenStep (n × k)))
    (hτ : S.map OpenStep.τ = S'.map OpenStep.τ) (hR : R.map OpenStep.τ = S.map OpenStep.τ)
    (hu : ∀ s ∈ S, s.u.length = a.ctrl.length) (hv : ∀ s ∈ S', s.u.length = b.ctrl.length)
    (hp : OpenOk { p with drift := (List.zipWith bothSteps S S').map OpenStep.H } (bothOps A B) (S.map OpenStep.τ)
      ((List.zipWith bothSteps S S').map OpenStep.u) ((List.zipWith bothSteps S S').map OpenStep.x))
    (hp' : OpenOk { p' with drift := R.map OpenStep.H } (bothOps A B) (S.map OpenStep.τ) (R.map OpenStep.u) (R.map OpenStep.x))
    (T₁ : Matrix n n ℂ) (T₂ : Matrix k k ℂ) (h1 : T₁ ∈ Matrix.unitaryGroup n ℂ) (h2 : T₂ ∈ Matrix.unitaryGroup k ℂ) :
    ∃ c₁ c₂ c : ℝ, openCost a S T₁ = .ok c₁ ∧ openCost b S' T₂ = .ok c₂ ∧ openCost p' R (T₁ ⊗ₖ T₂) = .ok c ∧
      |c - (1 - (1 - c₁) * (1 - c₂))| ≤ distance (bothOps A B) (S.map OpenStep.τ) { p' with drift := R.map OpenStep.H }
        (R.map OpenStep.u) (R.map OpenStep.x) { p with drift := (List.zipWith bothSteps S S').map OpenStep.H }
        ((List.zipWith bothSteps S S').map OpenStep.u) ((List.zipWith bothSteps S S').map OpenStep.x) := by
  have hS : S ≠ [] := by
    rintro rfl
    exact hp.nonempty rfl
  obtain ⟨c₁, c₂, c, e1, e2, e3, e4⟩ := c148_gates p a b h ⟨hp.method, hp.expm⟩ ha hb hi S S' hS hτ hu hv T₁ T₂
  have hl : S.length = S'.length := by simpa using congrArg List.length hτ
  have hτ' : (List.zipWith bothSteps S S').map OpenStep.τ = S.map OpenStep.τ := by
    refine List.ext_getElem (by simp [hl]) fun i h1 h2 => ?_
    simp [bothSteps]
  have hT : T₁ ⊗ₖ T₂ ∈ Matrix.unitaryGroup (n × k) ℂ := by
    rw [Matrix.mem_unitaryGroup_iff, Matrix.star_eq_conjTranspose] at h1 h2 ⊢
    rw [Matrix.conjTranspose_kronecker, ← Matrix.mul_kronecker_mul, h1, h2, Matrix.one_kronecker_one]
  obtain ⟨c', c'', k1, k2, k3⟩ := c152_infidelity _ _ _ _ _ _ _ _ hp' hp none (by simp) (T₁ ⊗ₖ T₂) hT
  unfold openCost at e3 ⊢
  rw [hτ'] at e3
  rw [hR]
  have : c'' = c := Except.ok.inj (k2.symm.trans e3)
  subst this
  refine ⟨c₁, c₂, c', e1, e2, k1, ?_⟩
  rw [← e4, sub_sub_cancel]
  exact k3

namespace Ex152

theorem constant_ok (L : Lapack (Fin 2 × Fin 2)) (hE : L.ExpmOk) (a b c d e f : ℝ) :
    OpenOk (decayPar L none none) [!![0, 1; 0, 0], !![1, 0; 0, -1]] [1, 2, 3] [[a, b], [c, d], [e, f]] [] :=
  ⟨⟨rfl, rfl, by simp, fun f hf => by cases hf⟩, by simp, rfl, rfl, by simp [decayPar], decay_drift, decay_ctrl, rfl, hE, rfl, by simp,
    fun f hf => by cases hf⟩

theorem varying_ok (L : Lapack (Fin 2 × Fin 2)) (hE : L.ExpmOk) :
    OpenOk (decayPar L (some decayPre) none) [!![0, 1; 0, 0], !![1, 0; 0, -1]] [1, 2, 3] [[1, 2], [3, 4], [5, 6]] [] :=
  ⟨⟨rfl, rfl, by simp, fun f hf => by
      cases hf
      exact ⟨rfl, fun row hrow => by simp only [decayPre, List.mem_map] at hrow; obtain ⟨t, -, rfl⟩ := hrow; rfl⟩⟩,
    by simp, rfl, rfl, by simp [decayPar], decay_drift, decay_ctrl, rfl, hE, rfl, by simp, by
      intro f hf
      cases hf
      intro row hrow w hw
      simp only [decayPre, List.mem_map, List.mem_range] at hrow
      obtain ⟨t, ht, rfl⟩ := hrow
      interval_cases t <;> simp at hw <;> rcases hw with rfl | rfl <;> norm_num⟩

/-- A decaying, dephasing and driven qubit: varying rates compared with constant ones and another pulse, and an amplitude error. -/
example : ∃ (L : Lapack (Fin 2 × Fin 2)) (c c' c'' : ℝ),
    lindCosts none !![0, 1; 1, 0] (decayPar L (some decayPre) none) [1, 2, 3] [[1, 2], [3, 4], [5, 6]] [] = .ok c ∧
    lindCosts none !![0, 1; 1, 0] (decayPar L none none) [1, 2, 3] [[1, 2], [3, 4], [5, 6]] [] = .ok c' ∧
    lindCosts none !![0, 1; 1, 0] (decayPar L none none) [1, 2, 3] [[1, 2], [3, 4], [5, 7]] [] = .ok c'' ∧
    |c - c'| ≤ distance [!![0, 1; 0, 0], !![1, 0; 0, -1]] [1, 2, 3] (decayPar L (some decayPre) none) [[1, 2], [3, 4], [5, 6]] []
      (decayPar L none none) [[1, 2], [3, 4], [5, 6]] [] ∧
    |c' - c''| ≤ 6 * ‖(!![0, -Complex.I; Complex.I, 0] : Matrix (Fin 2) (Fin 2) ℂ)‖ := by
  obtain ⟨L, -, -, hE, -⟩ := lapack_exists (Fin 2 × Fin 2)
  have hT : (!![0, 1; 1, 0] : Matrix (Fin 2) (Fin 2) ℂ) ∈ Matrix.unitaryGroup (Fin 2) ℂ := by
    rw [Matrix.mem_unitaryGroup_iff]
    ext i j; fin_cases i <;> fin_cases j <;> simp [Matrix.mul_apply]
  obtain ⟨c, c', h1, h2, h3⟩ := c152_infidelity _ _ _ _ _ _ _ _ (varying_ok L hE) (constant_ok L hE 1 2 3 4 5 6) none (by simp)
    !![0, 1; 1, 0] hT
  obtain ⟨d, d', k1, k2, k3⟩ := c152_amplitudes _ _ _ _ _ _ (constant_ok L hE 1 2 3 4 5 6) (constant_ok L hE 1 2 3 4 5 7) rfl none (by simp)
    !![0, 1; 1, 0] hT
  have e : d = c' := Except.ok.inj (k1.symm.trans h2)
  subst e
  refine ⟨L, c, d, d', h1, h2, k2, h3, k3.trans (le_of_eq ?_)⟩
  simp [Fin.sum_univ_three, decayPar]
  norm_num
  ring

open Ex148 in
/-- Two qubits which are treated separately although a small `Z ⊗ Z` interaction is there. -/
example : ∃ (L : Lapack ((Fin 2 × Fin 2) × (Fin 2 × Fin 2))) (L' : Lapack (Fin 2 × Fin 2)) (c₁ c₂ c : ℝ),
    openCost (one L') steps₁ !![0, 1; 1, 0] = .ok c₁ ∧ openCost (two L') steps₂ 1 = .ok c₂ ∧
      openCost (pair L) ((List.zipWith bothSteps steps₁ steps₂).map fun s =>
        { s with H := s.H + (1 / 100 : ℂ) • (!![1, 0; 0, -1] ⊗ₖ !![1, 0; 0, -1]) }) (!![0, 1; 1, 0] ⊗ₖ 1) = .ok c ∧
      |c - (1 - (1 - c₁) * (1 - c₂))| ≤ 6 / 100 * ‖(!![1, 0; 0, -1] : Matrix (Fin 2) (Fin 2) ℂ) ⊗ₖ (!![1, 0; 0, -1] : Matrix (Fin 2) (Fin 2) ℂ)‖ := by
  obtain ⟨L, -, -, hE, -⟩ := lapack_exists ((Fin 2 × Fin 2) × (Fin 2 × Fin 2))
  obtain ⟨L', -, -, hE', -⟩ := lapack_exists (Fin 2 × Fin 2)
  have hX : (!![0, 1; 1, 0] : Matrix (Fin 2) (Fin 2) ℂ).IsHermitian := by
    ext i j; fin_cases i <;> fin_cases j <;> simp
  have hZ : (!![1, 0; 0, -1] : Matrix (Fin 2) (Fin 2) ℂ).IsHermitian := by
    ext i j; fin_cases i <;> fin_cases j <;> simp
  have hT : (!![0, 1; 1, 0] : Matrix (Fin 2) (Fin 2) ℂ) ∈ Matrix.unitaryGroup (Fin 2) ℂ := by
    rw [Matrix.mem_unitaryGroup_iff]
    ext i j; fin_cases i <;> fin_cases j <;> simp [Matrix.mul_apply]
  have h1 : ∀ A : Matrix (Fin 2) (Fin 2) ℂ, A.IsHermitian → (A ⊗ₖ (1 : Matrix (Fin 2) (Fin 2) ℂ)).IsHermitian := by
    intro A hA
    rw [Matrix.IsHermitian, Matrix.conjTranspose_kronecker, hA.eq, Matrix.conjTranspose_one]
  have h2 : ∀ A : Matrix (Fin 2) (Fin 2) ℂ, A.IsHermitian → ((1 : Matrix (Fin 2) (Fin 2) ℂ) ⊗ₖ A).IsHermitian := by
    intro A hA
    rw [Matrix.IsHermitian, Matrix.conjTranspose_kronecker, hA.eq, Matrix.conjTranspose_one]
  have h3 : ((1 / 100 : ℂ) • ((!![1, 0; 0, -1] : Matrix (Fin 2) (Fin 2) ℂ) ⊗ₖ (!![1, 0; 0, -1] : Matrix (Fin 2) (Fin 2) ℂ))).IsHermitian := by
    rw [Matrix.IsHermitian, Matrix.conjTranspose_smul, Matrix.conjTranspose_kronecker, hZ.eq]
    simp
  have hctrl : ∀ H ∈ (pair L).ctrl, H.IsHermitian := by simp [pair, bothOps, h1 _ hX, h2 _ hX, h2 _ hZ]
  obtain ⟨c₁, c₂, c, e1, e2, e3, e4⟩ := c152_crosstalk (pair L) (pair L) (one L') (two L') (apart L L') ⟨rfl, hE'⟩ ⟨rfl, hE'⟩ rfl steps₁ steps₂
    ((List.zipWith bothSteps steps₁ steps₂).map fun s => { s with H := s.H + (1 / 100 : ℂ) • (!![1, 0; 0, -1] ⊗ₖ !![1, 0; 0, -1]) })
    rfl rfl (by simp [steps₁, Ex148.one]) (by simp [steps₂, two])
    ⟨⟨rfl, rfl, by simp [bothOps], fun f hf => by cases hf⟩, by simp [steps₁], rfl, rfl,
      by simp [steps₁, steps₂, bothSteps, pair, bothOps], by simp [steps₁, steps₂, bothSteps, h1 _ hZ, h2 _ hZ], hctrl, rfl, hE, rfl,
      by simp [steps₁], fun f hf => by cases hf⟩
    ⟨⟨rfl, rfl, by simp [bothOps], fun f hf => by cases hf⟩, by simp [steps₁], rfl, rfl,
      by simp [steps₁, steps₂, bothSteps, pair, bothOps], by
        simp only [steps₁, steps₂, bothSteps, List.zipWith_cons_cons, List.zipWith_nil_right, List.map_cons, List.map_nil, List.mem_cons,
          List.not_mem_nil, or_false, forall_eq_or_imp, forall_eq]
        refine ⟨?_, ?_⟩
        · rw [Matrix.kronecker_zero, add_zero]
          exact (h1 _ hZ).add h3
        · rw [Matrix.zero_kronecker, zero_add]
          exact (h2 _ hZ).add h3, hctrl, rfl, hE, rfl,
      by simp [steps₁], fun f hf => by cases hf⟩
    !![0, 1; 1, 0] 1 hT (one_mem _)
  refine ⟨L, L', c₁, c₂, c, e1, e2, e3, e4.trans (le_of_eq ?_)⟩
  have hd : ∀ t : Fin 2, mismatch (bothOps [!![0, 1; 0, 0]] [!![1, 0; 0, -1]])
      (LPar.hamAt { pair L with drift := ((List.zipWith bothSteps steps₁ steps₂).map fun s => { s with H := s.H + (1 / 100 : ℂ) •
        ((!![1, 0; 0, -1] : Matrix (Fin 2) (Fin 2) ℂ) ⊗ₖ (!![1, 0; 0, -1] : Matrix (Fin 2) (Fin 2) ℂ)) }).map OpenStep.H }
        ((List.zipWith bothSteps steps₁ steps₂).map OpenStep.u) t)
      (LPar.hamAt { pair L with drift := (List.zipWith bothSteps steps₁ steps₂).map OpenStep.H }
        ((List.zipWith bothSteps steps₁ steps₂).map OpenStep.u) t)
      (List.replicate 2 1) (List.replicate 2 1) =
      2 / 100 * ‖(!![1, 0; 0, -1] : Matrix (Fin 2) (Fin 2) ℂ) ⊗ₖ (!![1, 0; 0, -1] : Matrix (Fin 2) (Fin 2) ℂ)‖ := by
    intro t
    rw [mismatch_eq, rateGap_self]
    have : ∀ (D E : Matrix (Fin 2 × Fin 2) (Fin 2 × Fin 2) ℂ) ctrl row, hamiltonian (D + E) ctrl row - hamiltonian D ctrl row = E := by
      intro D E ctrl row
      unfold hamiltonian
      abel
    have hE : LPar.hamAt { pair L with drift := ((List.zipWith bothSteps steps₁ steps₂).map fun s => { s with H := s.H + (1 / 100 : ℂ) •
        ((!![1, 0; 0, -1] : Matrix (Fin 2) (Fin 2) ℂ) ⊗ₖ (!![1, 0; 0, -1] : Matrix (Fin 2) (Fin 2) ℂ)) }).map OpenStep.H }
        ((List.zipWith bothSteps steps₁ steps₂).map OpenStep.u) t -
      LPar.hamAt { pair L with drift := (List.zipWith bothSteps steps₁ steps₂).map OpenStep.H }
        ((List.zipWith bothSteps steps₁ steps₂).map OpenStep.u) t = (1 / 100 : ℂ) •
        ((!![1, 0; 0, -1] : Matrix (Fin 2) (Fin 2) ℂ) ⊗ₖ (!![1, 0; 0, -1] : Matrix (Fin 2) (Fin 2) ℂ)) := by
      fin_cases t <;> exact this _ _ _ _
    rw [hE, norm_smul]
    norm_num
    ring
  unfold distance
  refine (Fin.sum_univ_two (fun t : Fin 2 => _)).trans ?_
  have k0 := hd 0
  have k1 := hd 1
  refine (congrArg₂ (· + ·) (congrArg (fun z => (2 : ℝ) * z) k0) (congrArg (fun z => (1 : ℝ) * z) k1)).trans ?_
  ring

end Ex152

end
end Verif.Cost
