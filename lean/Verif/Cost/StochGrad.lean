import Verif.Cost.Estimator
import Verif.Operator.Duhamel
import Mathlib.Analysis.CStarAlgebra.Matrix
import Mathlib.Analysis.Calculus.ParametricIntegral
import Mathlib.Analysis.Calculus.FDeriv.Measurable

/-!
# C112: the gradient of the noise infidelity is an unbiased estimate

The gradient of `OperationNoiseInfidelity` on a `SchroedingerSMonteCarlo` solver is random, because the noise traces are drawn at
random.  Its mean is the gradient of the infidelity averaged over the noise.
-/

namespace Verif.Cost
open Verif Verif.Operator Verif.Solver Matrix MeasureTheory ProbabilityTheory

/-! ## Exponentials of anti-Hermitian matrices -/

section
open scoped Matrix.Norms.L2Operator
variable {n : Type} [Fintype n] [DecidableEq n]

theorem entry_le_norm (A : Matrix n n ℂ) (i j : n) : ‖A i j‖ ≤ ‖A‖ := by
  have h := Matrix.l2_opNorm_mulVec A (EuclideanSpace.single j 1)
  rw [PiLp.norm_single, norm_one, mul_one] at h
  refine le_trans ?_ h
  have := PiLp.norm_apply_le (WithLp.toLp 2 (A *ᵥ (EuclideanSpace.single j (1 : ℂ)).ofLp) : EuclideanSpace ℂ n) i
  refine le_trans (le_of_eq ?_) this
  simp

/-- The exponential is Lipschitz continuous with constant one on the anti-Hermitian matrices. -/
theorem exp_skew_lipschitz {A B : Matrix n n ℂ} (hA : Aᴴ = -A) (hB : Bᴴ = -B) :
    ‖NormedSpace.exp B - NormedSpace.exp A‖ ≤ ‖B - A‖ := by
  let _ : NormedAlgebra ℝ (Matrix n n ℂ) := NormedAlgebra.restrictScalars ℝ ℂ _
  have hs : ∀ {C : Matrix n n ℂ} (_ : Cᴴ = -C) (s : ℝ), NormedSpace.exp (s • C) ∈ unitary (Matrix n n ℂ) := by
    intro C hC s
    refine exp_skew_unitary ?_
    rw [Matrix.conjTranspose_smul, hC]
    simp
  rw [exp_sub_exp]
  refine (intervalIntegral.norm_integral_le_of_norm_le_const (C := ‖B - A‖) fun s _ => ?_).trans (by simp)
  rw [CStarRing.norm_mul_mem_unitary _ (hs hB s), CStarRing.norm_mem_unitary_mul _ (hs hA (1 - s))]

end

/-! ## Families of bounded Lipschitz functions -/

section
variable {E : Type} [NormedAddCommGroup E] {Z : Type}

/-- Bounded and Lipschitz continuous in the first argument, with constants independent of the second. -/
def BL (g : E → Z → ℂ) : Prop := ∃ C, 0 ≤ C ∧ (∀ x z, ‖g x z‖ ≤ C) ∧ ∀ x y z, ‖g x z - g y z‖ ≤ C * ‖x - y‖

theorem BL.const (a : ℂ) : BL fun (_ : E) (_ : Z) => a :=
  ⟨‖a‖, norm_nonneg _, fun _ _ => le_rfl, fun x y _ => by rw [sub_self, norm_zero]; positivity⟩

theorem BL.add {f g : E → Z → ℂ} (hf : BL f) (hg : BL g) : BL fun x z => f x z + g x z := by
  obtain ⟨C, h0, h1, h2⟩ := hf
  obtain ⟨D, k0, k1, k2⟩ := hg
  refine ⟨C + D, by positivity, fun x z => (norm_add_le _ _).trans (add_le_add (h1 x z) (k1 x z)), fun x y z => ?_⟩
  rw [add_sub_add_comm, add_mul]
  exact (norm_add_le _ _).trans (add_le_add (h2 x y z) (k2 x y z))

theorem BL.sum {ι : Type} (s : Finset ι) {f : ι → E → Z → ℂ} (hf : ∀ i, BL (f i)) : BL fun x z => ∑ i ∈ s, f i x z := by
  classical
  induction s using Finset.induction_on with
  | empty => simpa using BL.const 0
  | insert a s ha ih =>
    simp only [Finset.sum_insert ha]
    exact (hf a).add ih

theorem BL.mul {f g : E → Z → ℂ} (hf : BL f) (hg : BL g) : BL fun x z => f x z * g x z := by
  obtain ⟨C, h0, h1, h2⟩ := hf
  obtain ⟨D, k0, k1, k2⟩ := hg
  refine ⟨2 * (C * D), by positivity, fun x z => ?_, fun x y z => ?_⟩
  · rw [norm_mul]
    have := mul_le_mul (h1 x z) (k1 x z) (norm_nonneg _) h0
    nlinarith [mul_nonneg h0 k0]
  · have e : f x z * g x z - f y z * g y z = f x z * (g x z - g y z) + (f x z - f y z) * g y z := by ring
    rw [e]
    refine (norm_add_le _ _).trans ?_
    rw [norm_mul, norm_mul]
    have a1 := mul_le_mul (h1 x z) (k2 x y z) (norm_nonneg _) h0
    have a2 := mul_le_mul (h2 x y z) (k1 y z) (norm_nonneg _) (by positivity)
    nlinarith

theorem BL.star {f : E → Z → ℂ} (hf : BL f) : BL fun x z => Star.star (f x z) := by
  obtain ⟨C, h0, h1, h2⟩ := hf
  refine ⟨C, h0, fun x z => by rw [norm_star]; exact h1 x z, fun x y z => ?_⟩
  rw [← star_sub, norm_star]
  exact h2 x y z

/-- Matrices of bounded Lipschitz functions. -/
def MatBL {a b : Type} (F : E → Z → Matrix a b ℂ) : Prop := ∀ i j, BL fun x z => F x z i j

theorem MatBL.mul {a b c : Type} [Fintype b] {F : E → Z → Matrix a b ℂ} {G : E → Z → Matrix b c ℂ} (hF : MatBL F) (hG : MatBL G) :
    MatBL fun x z => F x z * G x z := fun i j => by
  simp only [Matrix.mul_apply]
  exact BL.sum _ fun k => (hF i k).mul (hG k j)

theorem MatBL.const {a b : Type} (A : Matrix a b ℂ) : MatBL fun (_ : E) (_ : Z) => A := fun _ _ => BL.const _

theorem MatBL.conjTranspose {a b : Type} {F : E → Z → Matrix a b ℂ} (hF : MatBL F) : MatBL fun x z => (F x z)ᴴ :=
  fun i j => (hF j i).star

theorem MatBL.trace {a : Type} [Fintype a] {F : E → Z → Matrix a a ℂ} (hF : MatBL F) : BL fun x z => (F x z).trace :=
  BL.sum _ fun i => hF i i

theorem foldl_BL {a b : Type} [Fintype a] (l : List (E → Z → Matrix a a ℂ)) (hl : ∀ P ∈ l, MatBL P) :
    ∀ I : E → Z → Matrix a b ℂ, MatBL I → MatBL fun x z => (l.map fun P => P x z).foldl (fun F P => P * F) (I x z) := by
  induction l with
  | nil => intro I hI; exact hI
  | cons P l ih =>
    intro I hI
    exact ih (fun Q hQ => hl Q (List.mem_cons_of_mem _ hQ)) (fun x z => P x z * I x z)
      (MatBL.mul (hl P List.mem_cons_self) hI)

end

section
variable {n : Type} [Fintype n] [DecidableEq n]

omit [Fintype n] [DecidableEq n] in
theorem truncTo_BL {E : Type} [NormedAddCommGroup E] {Z : Type} (cl : Closest) (cs : Option (List n)) (mcu : Bool)
    (hm : mcu = false ∨ cs = none) {F : E → Z → Matrix n n ℂ} (hF : MatBL F) : MatBL fun x z => truncTo cl cs mcu (F x z) := by
  cases cs with
  | none => exact hF
  | some l =>
    rcases hm with rfl | h
    · exact fun i j => hF (l.get i) (l.get j)
    · simp at h

/-! ## The infidelity as a function of the amplitudes -/

/-- The noisy Hamiltonian of a time step is Hermitian. -/
theorem noisy_hermitian (p : SPar n n) (hN : List (Matrix n n ℂ)) (τ : List ℝ) (hv : p.Valid τ)
    (hd : ∀ H ∈ p.drift, H.IsHermitian) (hc : ∀ H ∈ p.ctrl, H.IsHermitian) (hn : ∀ H ∈ hN, H.IsHermitian) (u : Pulse)
    (z : Fin hN.length → Fin (p.xTimes τ).length → ℝ) (t : Fin (p.xTimes τ).length) :
    (hamiltonian (p.drift.getD t 0) p.ctrl (u.getD t []) + ∑ j, ((z j t : ℝ) : ℂ) • hN[j]).IsHermitian := by
  refine Matrix.IsHermitian.add (hamiltonian_isHermitian _ ?_ hc) ?_
  · have : (t : Nat) < p.drift.length := by rw [hv.2.1]; exact t.2
    rw [List.getD_eq_getElem _ _ this]
    exact hd _ (List.getElem_mem _)
  · unfold Matrix.IsHermitian
    rw [Matrix.conjTranspose_sum]
    refine Finset.sum_congr rfl fun j _ => ?_
    have hj : (hN[j])ᴴ = hN[j] := hn _ (List.getElem_mem j.2)
    rw [Matrix.conjTranspose_smul, hj]
    simp

open scoped Matrix.Norms.L2Operator in
theorem noisyStep_BL (p : SPar n n) (hN : List (Matrix n n ℂ)) (τ : List ℝ) (hv : p.Valid τ)
    (hd : ∀ H ∈ p.drift, H.IsHermitian) (hc : ∀ H ∈ p.ctrl, H.IsHermitian) (hn : ∀ H ∈ hN, H.IsHermitian)
    (t : Fin (p.xTimes τ).length) :
    MatBL fun (U : Fin (p.xTimes τ).length → Fin p.ctrl.length → ℝ) z => noisyStep p hN τ (rowsOf U) z t := by
  have hskew : ∀ (u : Pulse) (z : Fin hN.length → Fin (p.xTimes τ).length → ℝ),
      ((((p.xTimes τ)[t] : ℝ) : ℂ) • (-Complex.I) •
        (hamiltonian (p.drift.getD t 0) p.ctrl (u.getD t []) + ∑ j, ((z j t : ℝ) : ℂ) • hN[j]))ᴴ =
      -((((p.xTimes τ)[t] : ℝ) : ℂ) • (-Complex.I) •
        (hamiltonian (p.drift.getD t 0) p.ctrl (u.getD t []) + ∑ j, ((z j t : ℝ) : ℂ) • hN[j])) := by
    intro u z
    rw [Matrix.conjTranspose_smul, Matrix.conjTranspose_smul, noisy_hermitian p hN τ hv hd hc hn u z t]
    simp only [star_neg, Complex.star_def, Complex.conj_I, neg_neg, Complex.conj_ofReal, neg_smul, smul_neg]
  intro i j
  refine ⟨max 1 (|(p.xTimes τ)[t]| * ∑ k, ‖p.ctrl.get k‖), by positivity, fun U z => ?_, fun U V z => ?_⟩
  · exact (entry_norm_bound_of_unitary (exp_skew_unitary (hskew _ z)) i j).trans (le_max_left _ _)
  · have h1 := exp_skew_lipschitz (hskew (rowsOf V) z) (hskew (rowsOf U) z)
    have h2 := entry_le_norm (noisyStep p hN τ (rowsOf U) z t - noisyStep p hN τ (rowsOf V) z t) i j
    rw [Matrix.sub_apply] at h2
    refine h2.trans (h1.trans ?_)
    rw [← smul_sub, ← smul_sub, add_sub_add_right_eq_sub, rowsOf_get U t t.2, rowsOf_get V t t.2, hamiltonian_sum, hamiltonian_sum,
      add_sub_add_left_eq_sub, ← Finset.sum_sub_distrib, norm_smul, norm_smul, norm_neg, Complex.norm_I, one_mul,
      Complex.norm_real, Real.norm_eq_abs]
    refine le_trans ?_ (mul_le_mul_of_nonneg_right (le_max_right _ _) (norm_nonneg _))
    rw [mul_assoc, Finset.sum_mul]
    refine mul_le_mul_of_nonneg_left ((norm_sum_le _ _).trans (Finset.sum_le_sum fun k _ => ?_)) (abs_nonneg _)
    rw [← sub_smul, norm_smul, mul_comm]
    refine mul_le_mul_of_nonneg_left ?_ (norm_nonneg _)
    rw [← Complex.ofReal_sub, Complex.norm_real]
    have a1 := norm_le_pi_norm (U - V) t
    have a2 := norm_le_pi_norm ((U - V) t) k
    exact a2.trans a1

theorem noisyFinal_BL (p : SPar n n) (hN : List (Matrix n n ℂ)) (τ : List ℝ) (hv : p.Valid τ)
    (hd : ∀ H ∈ p.drift, H.IsHermitian) (hc : ∀ H ∈ p.ctrl, H.IsHermitian) (hn : ∀ H ∈ hN, H.IsHermitian) :
    MatBL fun (U : Fin (p.xTimes τ).length → Fin p.ctrl.length → ℝ) z => noisyFinal p hN τ (rowsOf U) z := by
  have := foldl_BL (List.ofFn fun t (U : Fin (p.xTimes τ).length → Fin p.ctrl.length → ℝ) z => noisyStep p hN τ (rowsOf U) z t) (by
    intro P hP
    obtain ⟨t, rfl⟩ := (List.mem_ofFn' _ _).mp hP
    exact noisyStep_BL p hN τ hv hd hc hn t) (fun _ _ => p.init) (MatBL.const _)
  simpa only [List.map_ofFn, Function.comp_def, noisyFinal] using this

/-- The infidelity is Lipschitz continuous in the amplitudes, with a constant that does not depend on the noise. -/
theorem traceInfidelity_lipschitz (cl : Closest) (cs : Option (List n)) (T : Matrix (CompIdx cs) (CompIdx cs) ℂ) (mcu nse : Bool)
    (p : SPar n n) (hN : List (Matrix n n ℂ)) (τ : List ℝ) (h : NoisySystem p τ hN cs T mcu nse) :
    ∃ C, ∀ (U V : Fin (p.xTimes τ).length → Fin p.ctrl.length → ℝ) z,
      ‖traceInfidelity cl cs T mcu nse p hN τ (rowsOf U) z - traceInfidelity cl cs T mcu nse p hN τ (rowsOf V) z‖ ≤ C * ‖U - V‖ := by
  have hF := noisyFinal_BL p hN τ h.valid h.drift h.ctrl h.noise
  have hT : MatBL fun (U : Fin (p.xTimes τ).length → Fin p.ctrl.length → ℝ) (_ : Fin hN.length → Fin (p.xTimes τ).length → ℝ) =>
      (if nse then truncTo cl cs mcu (noisyFinal p hN τ (rowsOf U) 0) else T)ᴴ := by
    cases nse
    · exact MatBL.const Tᴴ
    · refine (truncTo_BL cl cs mcu h.plain (F := fun (U : Fin (p.xTimes τ).length → Fin p.ctrl.length → ℝ)
        (_ : Fin hN.length → Fin (p.xTimes τ).length → ℝ) => noisyFinal p hN τ (rowsOf U) 0) fun i j => ?_).conjTranspose
      obtain ⟨C, h0, h1, h2⟩ := hF i j
      exact ⟨C, h0, fun x _ => h1 x 0, fun x y _ => h2 x y 0⟩
  have htr := (hT.mul (truncTo_BL cl cs mcu h.plain hF)).trace
  obtain ⟨C, h0, h1, h2⟩ := htr.mul htr.star
  refine ⟨C / dim cs / dim cs, fun U V z => ?_⟩
  have hdim : 0 < dim cs := by
    have := h.states
    unfold dim; exact_mod_cast Fintype.card_pos
  have hsq : ∀ a : ℂ, ((‖a‖ ^ 2 : ℝ) : ℂ) = a * star a := fun a => by
    rw [Complex.star_def, Complex.mul_conj, Complex.normSq_eq_norm_sq]
  have h3 := h2 V U z
  simp only [← hsq, ← Complex.ofReal_sub, Complex.norm_real] at h3
  unfold traceInfidelity entFid
  rw [sub_sub_sub_cancel_left, ← sub_div, ← sub_div, norm_div, norm_div, Real.norm_of_nonneg hdim.le, div_mul_eq_mul_div,
    div_mul_eq_mul_div, norm_sub_rev U V]
  gcongr

theorem traceInfidelity_joint {E : Type} [NormedAddCommGroup E] [NormedSpace ℝ E] (cl : Closest) (cs : Option (List n))
    (T : Matrix (CompIdx cs) (CompIdx cs) ℂ) (mcu nse : Bool)
    (hm : mcu = false ∨ cs = none) (p : SPar n n) (hN : List (Matrix n n ℂ)) (τ : List ℝ)
    (z : E → Fin hN.length → Fin (p.xTimes τ).length → ℝ) (V : E → Fin (p.xTimes τ).length → Fin p.ctrl.length → ℝ)
    (hz : ∀ j t, Differentiable ℝ fun e => z e j t) (hV : ∀ t k, Differentiable ℝ fun e => V e t k) :
    Differentiable ℝ fun e => traceInfidelity cl cs T mcu nse p hN τ (rowsOf (V e)) (z e) := by
  have hh : ∀ t : Fin (p.xTimes τ).length, MatDiff fun e => hamiltonian (p.drift.getD t 0) p.ctrl ((rowsOf (V e)).getD t []) := by
    intro t i j
    simp only [rowsOf_get _ t t.2, hamiltonian_sum, Matrix.add_apply, Matrix.sum_apply, Matrix.smul_apply, smul_eq_mul]
    refine Differentiable.const_add _ (Differentiable.fun_sum fun k _ => Differentiable.mul_const ?_ _)
    exact Complex.ofRealCLM.differentiable.comp (hV t k)
  have hT : MatDiff fun e => (if nse then truncTo cl cs mcu (noisyFinal p hN τ (rowsOf (V e)) 0) else T)ᴴ := by
    cases nse
    · exact MatDiff.const (a := CompIdx cs) (b := CompIdx cs) Tᴴ
    · exact (truncTo_diff cl cs mcu hm (noisyFinal_diff p hN τ (fun e => rowsOf (V e)) (fun _ => 0) hh fun j t =>
        differentiable_const _)).conjTranspose
  unfold traceInfidelity entFid
  simp only [div_eq_mul_inv]
  refine Differentiable.const_sub (Differentiable.mul_const (Differentiable.mul_const ?_ _) _) _
  exact differentiable_norm_sq (hT.mul (truncTo_diff cl cs mcu hm
    (noisyFinal_diff p hN τ (fun e => rowsOf (V e)) z hh hz))).trace

/-- For fixed noise the infidelity is differentiable in the amplitudes. -/
theorem traceInfidelity_diff_amps (cl : Closest) (cs : Option (List n)) (T : Matrix (CompIdx cs) (CompIdx cs) ℂ) (mcu nse : Bool)
    (hm : mcu = false ∨ cs = none) (p : SPar n n) (hN : List (Matrix n n ℂ)) (τ : List ℝ)
    (z : Fin hN.length → Fin (p.xTimes τ).length → ℝ) :
    Differentiable ℝ fun V : Fin (p.xTimes τ).length → Fin p.ctrl.length → ℝ =>
      traceInfidelity cl cs T mcu nse p hN τ (rowsOf V) z :=
  traceInfidelity_joint cl cs T mcu nse hm p hN τ (fun _ => z) (fun V => V) (fun _ _ => differentiable_const _) fun t k =>
    differentiable_pi.mp (differentiable_pi.mp differentiable_id t) k

theorem traceInfidelity_continuous (cl : Closest) (cs : Option (List n)) (T : Matrix (CompIdx cs) (CompIdx cs) ℂ) (mcu nse : Bool)
    (hm : mcu = false ∨ cs = none) (p : SPar n n) (hN : List (Matrix n n ℂ)) (τ : List ℝ) :
    Continuous (Function.uncurry fun (z : Fin hN.length → Fin (p.xTimes τ).length → ℝ)
      (V : Fin (p.xTimes τ).length → Fin p.ctrl.length → ℝ) => traceInfidelity cl cs T mcu nse p hN τ (rowsOf V) z) :=
  (traceInfidelity_joint cl cs T mcu nse hm p hN τ Prod.fst Prod.snd
    (fun j t => differentiable_pi.mp (differentiable_pi.mp differentiable_fst j) t) fun t k =>
    differentiable_pi.mp (differentiable_pi.mp differentiable_snd t) k).continuous

/-- Differentiation under the integral. -/
theorem average_deriv {a b c d : Nat} (f : (Fin a → Fin b → ℝ) → (Fin c → Fin d → ℝ) → ℝ) (hf : Continuous (Function.uncurry f))
    (hd : ∀ z, Differentiable ℝ (f z)) (C : ℝ) (hC : ∀ z x y, ‖f z x - f z y‖ ≤ C * ‖x - y‖) (h01 : ∀ z x, f z x ∈ Set.Icc (0 : ℝ) 1)
    (ν : Measure (Fin a → Fin b → ℝ)) [IsProbabilityMeasure ν] (U : Fin c → Fin d → ℝ) :
    Measurable (fun z => fderiv ℝ (f z) U) ∧ Integrable (fun z => fderiv ℝ (f z) U) ν ∧
    HasFDerivAt (fun V => ∫ z, f z V ∂ν) (∫ z, fderiv ℝ (f z) U ∂ν) U := by
  have hm : Measurable (fun z => fderiv ℝ (f z) U) :=
    (measurable_fderiv_with_param ℝ hf).comp (measurable_id.prodMk measurable_const)
  have hs : ∀ V, AEStronglyMeasurable (fun z => f z V) ν := fun V =>
    (hf.comp (continuous_id.prodMk continuous_const)).aestronglyMeasurable
  exact ⟨hm, hasFDerivAt_integral_of_dominated_loc_of_lip' (bound := fun _ => C) (F := fun V z => f z V) Filter.univ_mem
    (fun V _ => hs V) (Integrable.of_mem_Icc 0 1 (hs U).aemeasurable (ae_of_all _ fun z => h01 z U)) hm.aestronglyMeasurable
    (ae_of_all _ fun z V _ => hC z V U) (integrable_const _) (ae_of_all _ fun z => (hd z).differentiableAt.hasFDerivAt)⟩

/-! ## The mean of the gradient -/

section
variable {Ω : Type*} [MeasurableSpace Ω] {μ : Measure Ω} [IsProbabilityMeasure μ]

/-- **C112** The gradient of the noise infidelity computed from randomly drawn traces is an unbiased estimate of the gradient of the
averaged infidelity: the mean of each of its entries is the corresponding partial derivative of the infidelity averaged over
the noise. -/
theorem c112_unbiased (p : SPar n n) (τ : List ℝ) (hN : List (Matrix n n ℂ)) (cl : Closest) (cs : Option (List n))
    (T : Matrix (CompIdx cs) (CompIdx cs) ℂ) (mcu nse : Bool) (h : NoisySystem p τ hN cs T mcu nse)
    (happ : p.approx = .none) (hF : p.L.FrechetOk)
    (hreach : ∀ U : Fin (p.xTimes τ).length → Fin p.ctrl.length → ℝ, ∃ y, ampsOf p.cfg τ y = some (rowsOf U))
    (y x : Pulse) (U : Fin (p.xTimes τ).length → Fin p.ctrl.length → ℝ) {K : Nat} (hK : 0 < K) (s : Ω → Arr3)
    {ν : Measure (Fin hN.length → Fin (p.xTimes τ).length → ℝ)} (hs : IidTraces μ s hN.length K (p.xTimes τ).length ν) :
    ∃ g : Ω → Fin (p.xTimes τ).length → Fin p.ctrl.length → ℝ,
      (∀ ω, mcGrad cl cs T mcu nse ⟨p.cfg, hN, .int 1, none, K, s ω⟩ (p.xTimes τ) y x (rowsOf U) = .ok (rowsOf (g ω))) ∧
      (∀ t c, Integrable (fun ω => g ω t c) μ) ∧
      ∃ L : (Fin (p.xTimes τ).length → Fin p.ctrl.length → ℝ) →L[ℝ] ℝ,
        HasFDerivAt (fun V => ∫ z, traceInfidelity cl cs T mcu nse p hN τ (rowsOf V) z ∂ν) L U ∧
        ∀ V, L V = ∑ t, ∑ c, (∫ ω, g ω t c ∂μ) * V t c := by
  have : IsProbabilityMeasure ν := ((hs.law ⟨0, hK⟩).isProbabilityMeasure_iff).mp inferInstance
  have hK' : (K : ℝ) ≠ 0 := by exact_mod_cast hK.ne'
  obtain ⟨C, hC⟩ := traceInfidelity_lipschitz cl cs T mcu nse p hN τ h
  obtain ⟨hm, hint, hder⟩ := average_deriv
    (fun z V => traceInfidelity cl cs T mcu nse p hN τ (rowsOf V) z) (traceInfidelity_continuous cl cs T mcu nse h.plain p hN τ)
    (traceInfidelity_diff_amps cl cs T mcu nse h.plain p hN τ) C (fun z V W => hC V W z)
    (fun z V => traceInfidelity_range cl cs h.states h.distinct T mcu nse h.plain h.target p hN τ h.valid h.drift h.ctrl h.noise
      h.init (rowsOf V) z) ν U
  have hcs : cs ≠ some [] := by
    rintro rfl
    obtain ⟨i⟩ := h.states
    exact Fin.elim0 i
  have hg := fun ω => c93_noise_total p τ h.valid h.stable h.method happ h.expm hF h.times hreach
    ⟨p.cfg, hN, .int 1, none, K, s ω⟩ ⟨rfl, rfl, rfl, hs.ops ω, hs.traces ω, hs.times ω, hK⟩ cl cs hcs mcu nse h.plain T y x U
  choose g h1 _ L h2 h3 using hg
  set D := fun z => fderiv ℝ (fun V => traceInfidelity cl cs T mcu nse p hN τ (rowsOf V) z) U with hD
  have hdiff : ∀ z, DifferentiableAt ℝ (fun V : Fin (p.xTimes τ).length → Fin p.ctrl.length → ℝ =>
      traceInfidelity cl cs T mcu nse p hN τ (rowsOf V) z) U := fun z =>
    (traceInfidelity_diff_amps cl cs T mcu nse h.plain p hN τ z).differentiableAt
  have hL : ∀ ω V, L ω V = (∑ k : Fin K, D (traceOf _ _ (s ω) k) V) / K := by
    intro ω V
    have e : (fun V : Fin (p.xTimes τ).length → Fin p.ctrl.length → ℝ => noiseInfidelity cl cs T mcu nse (p.final τ (rowsOf V)) K fun k =>
        (p.noisy hN (s ω) k).final τ (rowsOf V)) =
        fun V => (∑ k : Fin K, traceInfidelity cl cs T mcu nse p hN τ (rowsOf V) (traceOf _ _ (s ω) k)) * (K : ℝ)⁻¹ := by
      funext V
      unfold noiseInfidelity traceInfidelity
      simp only [noisy_final p τ h.valid h.method h.expm, clean_final p τ h.method h.expm hN, div_eq_mul_inv]
    have h2' := h2 ω
    rw [e] at h2'
    have hd := (HasFDerivAt.fun_sum (u := Finset.univ) fun k _ => (hdiff (traceOf _ _ (s ω) (k : Fin K))).hasFDerivAt).mul_const
      ((K : ℝ)⁻¹)
    rw [h2'.unique hd]
    simp [div_eq_inv_mul, hD]
  have hgu : ∀ ω t c, g ω t c = (∑ k : Fin K, D (traceOf _ _ (s ω) k) (unitAmp t c)) / K := by
    intro ω t c
    rw [← hL, h3]
    rw [Finset.sum_eq_single t, Finset.sum_eq_single c]
    · simp [unitAmp]
    · intro b _ hb; simp [unitAmp, hb]
    · simp
    · intro b _ hb
      refine Finset.sum_eq_zero fun k _ => ?_
      simp [unitAmp, hb]
    · simp
  have hDm : ∀ V, Measurable fun z => D z V := fun V => (ContinuousLinearMap.measurable_apply V).comp hm
  have hDi : ∀ V, Integrable (fun z => D z V) ν := fun V => hint.apply_continuousLinearMap V
  have hDk : ∀ V (k : Fin K), Integrable (fun ω => D (traceOf _ _ (s ω) k) V) μ := fun V k =>
    by
    have := hDi V
    rw [← (hs.law k).map_eq, integrable_map_measure (hDm V).aestronglyMeasurable (hs.law k).aemeasurable] at this
    exact this
  refine ⟨g, h1, fun t c => ?_, _, hder, fun V => ?_⟩
  · simp only [hgu]
    exact Integrable.div_const (integrable_finsetSum _ fun k _ => hDk _ k) _
  · have hmean : ∀ t c, ∫ ω, g ω t c ∂μ = ∫ z, D z (unitAmp t c) ∂ν := by
      intro t c
      simp only [hgu]
      rw [integral_div, integral_finsetSum _ fun k _ => hDk _ k]
      have : ∀ k : Fin K, ∫ ω, D (traceOf _ _ (s ω) k) (unitAmp t c) ∂μ = ∫ z, D z (unitAmp t c) ∂ν := fun k =>
        (hs.law k).integral_comp (hDm _).aestronglyMeasurable
      simp only [this, Finset.sum_const, Finset.card_univ, Fintype.card_fin, nsmul_eq_mul]
      field_simp
    have hV : V = ∑ t, ∑ c, V t c • unitAmp t c := by
      funext i j
      simp only [Finset.sum_apply, Pi.smul_apply, smul_eq_mul]
      rw [Finset.sum_eq_single i, Finset.sum_eq_single j]
      · simp [unitAmp]
      · intro b _ hb; simp [unitAmp, hb.symm]
      · simp
      · intro b _ hb
        refine Finset.sum_eq_zero fun k _ => ?_
        simp [unitAmp, hb.symm]
      · simp
    conv_lhs => rw [hV]
    simp only [map_sum, map_smul, smul_eq_mul, hmean]
    refine Finset.sum_congr rfl fun t _ => Finset.sum_congr rfl fun c _ => ?_
    rw [ContinuousLinearMap.integral_apply hint, mul_comm]

open Verif.Noise in
/-- **C112** With quasi-static noise in Monte Carlo mode the mean of the gradient is the gradient of the infidelity averaged over a
static noise Hamiltonian with independent normally distributed strengths. -/
theorem c112_quasi_static {randn : Ω → Nat → Nat → Nat → ℝ} (hw : WhiteNoise μ randn) (e : ℝ → ℝ) (hp : Heap) (q : QuasiStatic)
    (hmode : q.mode = .monteCarlo) (ht : 0 < q.nTraces) (p : SPar n n) (τ : List ℝ) (hN : List (Matrix n n ℂ))
    (hl : (hp.get q.sd).length = hN.length) (hne : hN ≠ []) (hs : q.nSamples = (p.xTimes τ).length) (cl : Closest)
    (cs : Option (List n)) (T : Matrix (CompIdx cs) (CompIdx cs) ℂ) (mcu nse : Bool) (h : NoisySystem p τ hN cs T mcu nse)
    (happ : p.approx = .none) (hF : p.L.FrechetOk)
    (hreach : ∀ U : Fin (p.xTimes τ).length → Fin p.ctrl.length → ℝ, ∃ y, ampsOf p.cfg τ y = some (rowsOf U))
    (y x : Pulse) (U : Fin (p.xTimes τ).length → Fin p.ctrl.length → ℝ) :
    ∃ (s : Ω → Noise.Arr3) (g : Ω → Fin (p.xTimes τ).length → Fin p.ctrl.length → ℝ),
      (∀ ω, q.draw e hp (fun i j => randn ω i j 0) = .ok (s ω)) ∧
      (∀ ω, mcGrad cl cs T mcu nse ⟨p.cfg, hN, .int 1, none, q.nTraces, arrOf (s ω)⟩ (p.xTimes τ) y x (rowsOf U) =
        .ok (rowsOf (g ω))) ∧
      ∃ L : (Fin (p.xTimes τ).length → Fin p.ctrl.length → ℝ) →L[ℝ] ℝ,
        HasFDerivAt (fun V => ∫ v, traceInfidelity cl cs T mcu nse p hN τ (rowsOf V) (fun j _ => v j)
          ∂(Measure.pi fun j : Fin hN.length => gaussianReal 0 (NNReal.mk ((hp.get q.sd).getD j 0 ^ 2) (sq_nonneg _)))) L U ∧
        ∀ V, L V = ∑ t, ∑ c, (∫ ω, g ω t c ∂μ) * V t c := by
  obtain ⟨s, h1, -, h2⟩ := c111_quasi_static hw e hp q hmode ht hl (List.length_pos_iff.mpr hne)
  rw [hs] at h2
  obtain ⟨g, h3, -, L, h4, h5⟩ := c112_unbiased p τ hN cl cs T mcu nse h happ hF hreach y x U ht _ h2
  refine ⟨s, g, h1, h3, L, ?_, h5⟩
  convert h4 using 2 with V
  unfold quasiStaticLaw
  rw [integral_map (Measurable.aemeasurable (by fun_prop))]
  exact (traceInfidelity_diff cl cs T mcu nse h.plain p hN τ (rowsOf V)).continuous.aestronglyMeasurable

end
end

open Verif.Noise in
/-- Ten traces of static noise on a qubit driven with two controls at three time steps. -/
example (cl : Closest) : ∃ (L : Lapack (Fin 2)) (μ : Measure (Nat × Nat × Nat → ℝ)) (s : (Nat × Nat × Nat → ℝ) → Noise.Arr3)
    (g : (Nat × Nat × Nat → ℝ) → Fin 3 → Fin 2 → ℝ) (D : (Fin 3 → Fin 2 → ℝ) →L[ℝ] ℝ),
    (∀ ω, mcGrad cl (n := Fin 2) none 1 false true ⟨(qubitPar L .none true).cfg, [!![1, 0; 0, -1]], .int 1, none, 10, arrOf (s ω)⟩ [1, 2, 3] [] []
      (rowsOf fun (t : Fin 3) (c : Fin 2) => (t : ℝ) + c) = .ok (rowsOf (g ω))) ∧
    HasFDerivAt (fun V : Fin 3 → Fin 2 → ℝ => ∫ v, traceInfidelity cl none 1 false true (qubitPar L .none true) [!![1, 0; 0, -1]] [1, 2, 3]
      (rowsOf V) (fun j _ => v j) ∂(Measure.pi fun j : Fin 1 => gaussianReal 0 (NNReal.mk ([(1 / 10 : ℝ)].getD j 0 ^ 2) (sq_nonneg _)))) D
      (fun t c => (t : ℝ) + c) ∧ ∀ V, D V = ∑ t, ∑ c, (∫ ω, g ω t c ∂μ) * V t c := by
  obtain ⟨L, -, -, hE, hF⟩ := lapack_exists (Fin 2)
  obtain ⟨μ, hμ, hw⟩ := whiteNoise_exists
  obtain ⟨s, g, -, h2, D, h3, h4⟩ := c112_quasi_static hw (fun x => x) [[1 / 10]] ⟨0, 3, 10, none, true, .monteCarlo⟩ rfl (by norm_num)
    (qubitPar L .none true) [1, 2, 3] [!![1, 0; 0, -1]] rfl (by simp) rfl cl none 1 false true (qubit_system hE) rfl hF
    (fun U => ⟨rowsOf U, qubitPar_amps L _ _ _ (rowsOf_shape U).1 (rowsOf_shape U).2⟩) [] [] (fun t c => (t : ℝ) + c)
  exact ⟨L, μ, s, g, D, h2, h3, h4⟩

end Verif.Cost
