import Verif.Cost.OpenSensitivity
import Mathlib.LinearAlgebra.Matrix.Charpoly.Eigs
import Mathlib.LinearAlgebra.Matrix.Charpoly.Coeff
import Mathlib.Analysis.Calculus.MeanValue

/-!
# C153: what no pulse can reach in an open system

`OperationInfidelity` (cost_functions.py:1171-1275, super operators 1256-1259) with a `LindbladSolver` (solver_algorithms.py:1778-2105): a lower
bound of the infidelity on all states which depends on the dissipation only, hence holds for every pulse and every target.
-/

namespace Verif.Cost
open Verif Verif.Operator Verif.Solver Matrix
open scoped Kronecker ComplexOrder

section
open scoped Matrix.Norms.L2Operator
variable {n : Type} [Fintype n] [DecidableEq n]

/-! ## Specification -/

/-- How far the operator `L` is from a multiple of the identity: `d ∑ |L_ij|² - |∑ L_ii|²`. -/
noncomputable def spread (L : Matrix n n ℂ) : ℝ := (Fintype.card n : ℝ) * ∑ i, ∑ j, ‖L i j‖ ^ 2 - ‖∑ i, L i i‖ ^ 2

/-- The accumulated dissipation: duration times rate times spread, summed over time steps and Lindblad operators. -/
noncomputable def erosion (Ls : List (Matrix n n ℂ)) (times : List ℝ) (w : Nat → List ℝ) : ℝ :=
  ∑ t : Fin times.length, times[t] * (((w t).zip Ls).map fun q => q.1 * spread q.2).sum

/-! ## Lemmas -/

section det
variable {m : Type} [Fintype m] [DecidableEq m]

theorem det_differentiable : Differentiable ℂ (fun A : Matrix m m ℂ => A.det) := by
  have h : ∀ i j, Differentiable ℂ fun A : Matrix m m ℂ => A i j := fun i j =>
    (LinearMap.toContinuousLinearMap (Matrix.entryLinearMap ℂ ℂ i j)).differentiable
  simp only [Matrix.det_apply]
  refine Differentiable.fun_sum fun σ _ => Differentiable.const_smul ?_ _
  induction (Finset.univ : Finset m) using Finset.induction with
  | empty => simp
  | insert i s hi ih =>
    simp only [Finset.prod_insert hi]
    exact (h (σ i) i).fun_mul ih

theorem det_line_deriv (A : Matrix m m ℂ) : HasDerivAt (fun z : ℂ => (1 + z • A).det) A.trace 0 := by
  have h := (Matrix.det (1 + (Polynomial.X : Polynomial ℂ) • A.map Polynomial.C)).hasDerivAt 0
  rw [Matrix.derivative_det_one_add_X_smul] at h
  refine h.congr_of_eventuallyEq (Filter.Eventually.of_forall fun z => ?_)
  show (1 + z • A).det = Polynomial.evalRingHom z _
  rw [RingHom.map_det]
  congr 1
  ext i j
  by_cases hij : i = j <;> simp [hij] <;> exact mul_comm _ _

/-- The determinant of an exponential. -/
theorem det_exp (A : Matrix m m ℂ) : (NormedSpace.exp A).det = Complex.exp A.trace := by
  set f : ℂ → ℂ := fun z => (NormedSpace.exp (z • A)).det with hf
  have hadd : ∀ z w, f (z + w) = f z * f w := by
    intro z w
    let _ : NormedAlgebra ℚ (Matrix m m ℂ) := NormedAlgebra.restrictScalars ℚ ℂ _
    simp only [hf]
    rw [← Matrix.det_mul, add_smul, NormedSpace.exp_add_of_commute ((Commute.refl A).smul_left z |>.smul_right w)]
  have h0 : HasDerivAt f A.trace 0 := by
    have h1 : HasDerivAt (fun z : ℂ => NormedSpace.exp (z • A)) (NormedSpace.exp ((0 : ℂ) • A) * A) 0 := hasDerivAt_exp_smul_const A 0
    have h2 : HasDerivAt (fun z : ℂ => 1 + z • A) A 0 := by
      simpa using ((hasDerivAt_id (0 : ℂ)).smul_const A).const_add 1
    rw [zero_smul, NormedSpace.exp_zero, one_mul] at h1
    have e1 : NormedSpace.exp ((0 : ℂ) • A) = 1 := by rw [zero_smul, NormedSpace.exp_zero]
    have e2 : 1 + (0 : ℂ) • A = 1 := by rw [zero_smul, add_zero]
    have hd := (det_differentiable (m := m) 1).hasFDerivAt
    have h3 := HasFDerivAt.comp_hasDerivAt (x := (0 : ℂ)) (f := fun z : ℂ => NormedSpace.exp (z • A)) (by rw [e1]; exact hd) h1
    have h4 := HasFDerivAt.comp_hasDerivAt (x := (0 : ℂ)) (f := fun z : ℂ => 1 + z • A) (by rw [e2]; exact hd) h2
    rw [(det_line_deriv A).unique h4]
    exact h3
  have ht : ∀ z, HasDerivAt f (f z * A.trace) z := by
    intro z
    have h1 : HasDerivAt (fun w => f z * f (w - z)) (f z * A.trace) z := by
      have h2 : HasDerivAt (fun w => f (w - z)) A.trace z := HasDerivAt.comp_sub_const z z (by rw [sub_self]; exact h0)
      exact h2.const_mul (f z)
    refine h1.congr_of_eventuallyEq (Filter.Eventually.of_forall fun w => ?_)
    show f w = f z * f (w - z)
    rw [← hadd, add_sub_cancel]
  have hg : ∀ z, HasDerivAt (fun z => f z * Complex.exp (-(z * A.trace))) 0 z := by
    intro z
    have h1 : HasDerivAt (fun z => Complex.exp (-(z * A.trace))) (Complex.exp (-(z * A.trace)) * -A.trace) z := by
      have := ((hasDerivAt_id z).mul_const A.trace).neg.cexp
      simpa using this
    refine ((ht z).mul h1).congr_deriv ?_
    ring
  have hc := is_const_of_deriv_eq_zero (fun z => (hg z).differentiableAt) (fun z => (hg z).deriv) 1 0
  have e0 : f 0 = 1 := by simp [hf]
  have e1 : f 1 = (NormedSpace.exp A).det := by simp [hf]
  simp only [e0, e1, one_mul, zero_mul, neg_zero, Complex.exp_zero, mul_one] at hc
  rw [Complex.exp_neg, mul_inv_eq_one₀ (Complex.exp_ne_zero _)] at hc
  exact hc

end det

omit [DecidableEq n] in
theorem trace_conjugation (A : Matrix n n ℂ) : (Solver.unitarySup A).trace = ((‖A.trace‖ ^ 2 : ℝ) : ℂ) := by
  unfold Solver.unitarySup
  rw [Matrix.trace_kronecker, show (conjM A).trace = star A.trace by simp [conjM, Matrix.trace]]
  rw [Complex.star_def, Complex.conj_mul']
  push_cast
  rfl

theorem trace_cross (Z : Matrix n n ℂ) : (cross Z).trace = ((2 * Fintype.card n * Z.trace.re : ℝ) : ℂ) := by
  unfold cross
  rw [Matrix.trace_sub, Matrix.trace_sub, trace_conjugation, trace_conjugation, trace_conjugation, Matrix.trace_add, Matrix.trace_one]
  norm_cast
  rw [← Complex.normSq_eq_norm_sq, ← Complex.normSq_eq_norm_sq, Complex.normSq_apply, Complex.normSq_apply]
  push_cast
  simp
  ring

omit [DecidableEq n] in
theorem trace_gram (L : Matrix n n ℂ) : (Lᴴ * L).trace = ((∑ i, ∑ j, ‖L i j‖ ^ 2 : ℝ) : ℂ) := by
  rw [Finset.sum_comm]
  simp only [Matrix.trace, Matrix.diag, Matrix.mul_apply, Matrix.conjTranspose_apply, Complex.ofReal_sum, Complex.star_def, Complex.conj_mul']
  push_cast
  rfl

/-- The trace of a generator depends on the dissipation only. -/
theorem trace_generator {G : Sup n} {H : Matrix n n ℂ} (hH : H.IsHermitian) (ws : List (ℝ × Matrix n n ℂ))
    (hG : ∀ ρ, G *ᵥ vec ρ = vec (master H ws ρ)) : G.trace = ((-(ws.map fun q => q.1 * spread q.2).sum : ℝ) : ℂ) := by
  have e : G = cross (driftPart H ws) + jumpPart ws := by
    refine matrix_ext_mulVec fun ρ => ?_
    rw [hG, Matrix.add_mulVec, cross_mulVec, jumpPart_mulVec, master_eq hH]
    rfl
  have hre : H.trace.im = 0 := by
    have : star H.trace = H.trace := by rw [← Matrix.trace_conjTranspose, hH.eq]
    exact Complex.conj_eq_iff_im.mp this
  rw [e, Matrix.trace_add, trace_cross]
  unfold driftPart jumpPart
  rw [Matrix.trace_sub, Matrix.trace_smul, Matrix.trace_smul]
  have h1 : (ws.map fun p : ℝ × Matrix n n ℂ => (p.1 : ℂ) • (p.2ᴴ * p.2)).sum.trace = (((ws.map fun p : ℝ × Matrix n n ℂ => p.1 * ∑ i, ∑ j, ‖p.2 i j‖ ^ 2).sum : ℝ) : ℂ) := by
    clear e hG
    induction ws with
    | nil => simp
    | cons p ws ih =>
      simp only [List.map_cons, List.sum_cons]
      rw [Matrix.trace_add, Matrix.trace_smul, trace_gram, ih]
      push_cast
      rfl
  have h2 : (ws.map fun p : ℝ × Matrix n n ℂ => (p.1 : ℂ) • Solver.unitarySup p.2).sum.trace = (((ws.map fun p : ℝ × Matrix n n ℂ => p.1 * ‖∑ i, p.2 i i‖ ^ 2).sum : ℝ) : ℂ) := by
    clear e hG h1
    induction ws with
    | nil => simp
    | cons p ws ih =>
      simp only [List.map_cons, List.sum_cons]
      rw [Matrix.trace_add, Matrix.trace_smul, trace_conjugation, ih]
      push_cast
      rfl
  have h3 : (ws.map fun q => q.1 * spread q.2).sum =
      Fintype.card n * (ws.map fun p => p.1 * ∑ i, ∑ j, ‖p.2 i j‖ ^ 2).sum - (ws.map fun p => p.1 * ‖∑ i, p.2 i i‖ ^ 2).sum := by
    clear * -
    induction ws with
    | nil => simp
    | cons p ws ih =>
      simp only [List.map_cons, List.sum_cons]
      rw [ih]
      unfold spread
      ring
  rw [h1, h2, h3]
  norm_cast
  simp [hre]
  ring

/-- The eigenvalues of a physical operation. -/
theorem Channel.eigenvalue {M : Sup n} (hM : Channel M) {z : ℂ} (hz : z ∈ M.charpoly.roots) : ‖z‖ ≤ 1 := by
  have h0 : (Matrix.scalar (n × n) z - M).det = 0 := by
    rw [← Matrix.eval_charpoly]
    exact (Polynomial.mem_roots'.mp hz).2
  obtain ⟨v, hv, h1⟩ := Matrix.exists_mulVec_eq_zero_iff.mpr h0
  have h2 : M *ᵥ v = z • v := by
    rw [Matrix.sub_mulVec, sub_eq_zero] at h1
    rw [← h1]
    ext i
    simp [Matrix.mulVec_diagonal]
  have hpow : ∀ k : Nat, Channel (M ^ k) ∧ (M ^ k) *ᵥ v = z ^ k • v := by
    intro k
    induction k with
    | zero => exact ⟨by rw [pow_zero]; exact .one, by simp⟩
    | succ k ih =>
      refine ⟨by rw [pow_succ]; exact ih.1.mul hM, ?_⟩
      rw [pow_succ', ← Matrix.mulVec_mulVec, ih.2, Matrix.mulVec_smul, h2, smul_smul, pow_succ]
  set X : Matrix n n ℂ := unvec v with hX
  have hvX : v = vec X := rfl
  have hX0 : 0 < ((Xᴴ * X).trace).re := by
    rw [trace_gram, Complex.ofReal_re]
    obtain ⟨q, hq⟩ : ∃ q, v q ≠ 0 := by
      by_contra hall
      push Not at hall
      exact hv (funext hall)
    have hq' : X q.2 q.1 ≠ 0 := hq
    refine Finset.sum_pos' (fun i _ => Finset.sum_nonneg fun j _ => by positivity) ⟨q.2, Finset.mem_univ _, ?_⟩
    exact Finset.sum_pos' (fun j _ => by positivity) ⟨q.1, Finset.mem_univ _, by positivity⟩
  set C : ℝ := Fintype.card n * (‖Xᴴ‖ * ‖X‖) with hC
  have hb : ∀ k : Nat, ‖z‖ ^ k * ((Xᴴ * X).trace).re ≤ C := by
    intro k
    obtain ⟨hk, hkv⟩ := hpow k
    obtain ⟨B, hB, hBX⟩ := dual_observable hk.1 hk.2 Xᴴ
    have h3 := hBX X
    rw [← hvX, hkv, show unvec (z ^ k • v) = z ^ k • X from rfl, Matrix.mul_smul, Matrix.trace_smul] at h3
    have h4 := congrArg norm h3
    rw [norm_smul, norm_pow] at h4
    calc ‖z‖ ^ k * ((Xᴴ * X).trace).re ≤ ‖z‖ ^ k * ‖(Xᴴ * X).trace‖ := mul_le_mul_of_nonneg_left (Complex.re_le_norm _) (by positivity)
      _ = ‖(B * X).trace‖ := h4
      _ ≤ Fintype.card n * ‖B * X‖ := trace_norm_le _
      _ ≤ Fintype.card n * (‖Xᴴ‖ * ‖X‖) := mul_le_mul_of_nonneg_left
          ((norm_mul_le _ _).trans (mul_le_mul_of_nonneg_right hB (norm_nonneg _))) (by positivity)
  by_contra hgt
  push Not at hgt
  obtain ⟨k, hk⟩ := pow_unbounded_of_one_lt (C / ((Xᴴ * X).trace).re) hgt
  rw [div_lt_iff₀ hX0] at hk
  exact absurd (hb k) (not_le.mpr hk)

theorem multiset_bound (s : Multiset ℂ) (h : ∀ z ∈ s, ‖z‖ ≤ 1) : s.sum.re ≤ Multiset.card s - 1 + ‖s.prod‖ ∧ ‖s.prod‖ ≤ 1 := by
  induction s using Multiset.induction with
  | empty => simp
  | cons z s ih =>
    obtain ⟨h1, h2⟩ := ih fun w hw => h w (by simp [hw])
    have hz := h z (by simp)
    have hr := Complex.re_le_norm z
    simp only [Multiset.sum_cons, Multiset.prod_cons, Multiset.card_cons, Complex.add_re, norm_mul]
    push_cast
    exact ⟨by nlinarith [mul_nonneg (sub_nonneg.2 hz) (sub_nonneg.2 h2)], mul_le_one₀ hz (norm_nonneg _) h2⟩

/-- Trace and determinant of a physical operation. -/
theorem Channel.trace_le {M : Sup n} (hM : Channel M) : M.trace.re ≤ (Fintype.card n : ℝ) ^ 2 - 1 + ‖M.det‖ := by
  have hs : M.charpoly.Splits := IsAlgClosed.splits _
  have h := (multiset_bound M.charpoly.roots fun z hz => hM.eigenvalue hz).1
  rw [← Matrix.trace_eq_sum_roots_charpoly_of_splits hs, ← Matrix.det_eq_prod_roots_charpoly_of_splits hs] at h
  have hcard : Multiset.card M.charpoly.roots = Fintype.card n * Fintype.card n := by
    rw [← hs.natDegree_eq_card_roots, Matrix.charpoly_natDegree_eq_dim, Fintype.card_prod]
  rw [hcard] at h
  push_cast at h
  rw [sq]
  exact h

theorem conjugation_channel {U : Matrix n n ℂ} (hU : U ∈ Matrix.unitaryGroup n ℂ) : Channel (Solver.unitarySup U) := by
  refine ⟨.unitarySup U, fun ρ => ⟨U * ρ * Uᴴ, unitarySup_mulVec _ _, ?_, fun h => ?_⟩⟩
  · rw [Matrix.trace_mul_comm, ← Matrix.mul_assoc, show Uᴴ * U = 1 from Matrix.mem_unitaryGroup_iff'.mp hU, Matrix.one_mul]
  · rw [Matrix.IsHermitian, Matrix.conjTranspose_mul, Matrix.conjTranspose_mul, h.eq, Matrix.conjTranspose_conjTranspose, Matrix.mul_assoc]

theorem conjugation_det {U : Matrix n n ℂ} (hU : U ∈ Matrix.unitaryGroup n ℂ) : ‖(Solver.unitarySup U).det‖ = 1 := by
  have h : Solver.unitarySup U ∈ Matrix.unitaryGroup (n × n) ℂ := by
    rw [Matrix.mem_unitaryGroup_iff, Matrix.star_eq_conjTranspose]
    have e : (Solver.unitarySup U)ᴴ = Solver.unitarySup Uᴴ := by
      unfold Solver.unitarySup
      rw [Matrix.conjTranspose_kronecker]
      congr 1
    rw [e, ← unitarySup_mul, show U * Uᴴ = 1 from Matrix.mem_unitaryGroup_iff.mp hU]
    unfold Solver.unitarySup
    rw [show conjM (1 : Matrix n n ℂ) = 1 by rw [conjM_eq]; simp, Matrix.one_kronecker_one]
  exact CStarRing.norm_of_mem_unitary (Matrix.det_of_mem_unitary h)

theorem foldl_det {α : Type} (P : α → Sup n) (b : α → ℂ) (hP : ∀ a, (P a).det = Complex.exp (b a)) (l : List α) (F : Sup n) :
    ((l.map P).foldl (fun F P => P * F) F).det = Complex.exp (l.map b).sum * F.det := by
  induction l generalizing F with
  | nil => simp
  | cons a l ih =>
    simp only [List.map_cons, List.foldl_cons, List.sum_cons]
    rw [ih, Matrix.det_mul, hP, Complex.exp_add]
    ring

/-- The determinant of the final propagator. -/
theorem OpenOk.det {p : LPar n} {Ls : List (Matrix n n ℂ)} {times : List ℝ} {u x : Pulse} (h : OpenOk p Ls times u x) :
    ∃ f F, p.fwd times u x = .ok f ∧ f.getLast? = some F ∧ Channel F ∧
      ‖F.det‖ = Real.exp (-erosion Ls times (weightsAt p Ls u x)) := by
  obtain ⟨G, f, h1, h2, h3, h4, h5, h6⟩ := h.run
  have h7 := h3 times.length le_rfl
  rw [List.take_of_length_le (by simp)] at h7
  refine ⟨f, _, h1, by rw [List.getLast?_eq_getElem?, h2]; exact h7, ?_, ?_⟩
  · refine Channel.foldl (fun M hM => ?_) .one
    obtain ⟨t, -, rfl⟩ := List.mem_map.1 hM
    exact h6 t _ (h.durations _ (List.getElem_mem _))
  · rw [foldl_det _ (fun t : Fin times.length =>
        (((times[t] : ℝ) * -(((weightsAt p Ls u x t).zip Ls).map fun q => q.1 * spread q.2).sum : ℝ) : ℂ)) (fun t => by
          rw [det_exp, Matrix.trace_smul, trace_generator (h4 t) _ (h5 t), smul_eq_mul, Complex.ofReal_mul]),
      Matrix.det_one, mul_one, ← List.ofFn_eq_map, List.sum_ofFn, ← Complex.ofReal_sum, ← Complex.ofReal_exp, Complex.norm_real,
      Real.norm_of_nonneg (Real.exp_pos _).le]
    congr 1
    unfold erosion
    rw [← Finset.sum_neg_distrib]
    exact Finset.sum_congr rfl fun t _ => mul_neg _ _

/-! ## C153 -/

/-- **C153** Whatever the pulse and the target gate: on all states the infidelity is at least `(1 - exp(-E)) / d²` with the accumulated
dissipation `E`. -/
theorem c153_limit (p : LPar n) (Ls : List (Matrix n n ℂ)) (times : List ℝ) (u x : Pulse) (h : OpenOk p Ls times u x) (T : Matrix n n ℂ)
    (hT : T ∈ Matrix.unitaryGroup n ℂ) :
    ∃ c : ℝ, lindCosts none T p times u x = .ok c ∧
      (1 - Real.exp (-erosion Ls times (weightsAt p Ls u x))) / (Fintype.card n : ℝ) ^ 2 ≤ c := by
  obtain ⟨f, F, h1, h2, h3, h4⟩ := h.det
  refine ⟨1 - entFidSup none T F, ?_, ?_⟩
  · unfold lindCosts opCostsSup
    rw [h1]
    simp only [bind, Except.bind]
    rw [last_ok h2]
    rfl
  · have hT' : Tᴴ ∈ Matrix.unitaryGroup n ℂ := by
      rw [Matrix.mem_unitaryGroup_iff, Matrix.star_eq_conjTranspose, Matrix.conjTranspose_conjTranspose]
      exact Matrix.mem_unitaryGroup_iff'.mp hT
    have h5 := ((conjugation_channel hT').mul h3).trace_le
    rw [Matrix.det_mul, norm_mul, conjugation_det hT', one_mul, h4] at h5
    have e : entFidSup none T F = (Solver.unitarySup (n := n) Tᴴ * F).trace.re / (Fintype.card n : ℝ) ^ 2 := by
      rw [sq, ← div_div]
      rfl
    rw [e]
    rcases isEmpty_or_nonempty n with hn | hn
    · simp
    · have hd : (0 : ℝ) < (Fintype.card n : ℝ) ^ 2 := by
        have := Fintype.card_pos (α := n)
        positivity
      rw [div_le_iff₀ hd, sub_mul, div_mul_cancel₀ _ hd.ne']
      linarith

omit [DecidableEq n] in
/-- The spread as a sum of squares. -/
theorem spread_eq (L : Matrix n n ℂ) : spread L = (Fintype.card n : ℝ) * (∑ i, ∑ j, ‖L i j‖ ^ 2 - ∑ i, ‖L i i‖ ^ 2) +
    (1 / 2) * ∑ i, ∑ j, ‖L i i - L j j‖ ^ 2 := by
  have e : ∀ i j, ‖L i i - L j j‖ ^ 2 = ‖L i i‖ ^ 2 + ‖L j j‖ ^ 2 - 2 * (L i i * star (L j j)).re := by
    intro i j
    rw [← Complex.normSq_eq_norm_sq, ← Complex.normSq_eq_norm_sq, ← Complex.normSq_eq_norm_sq, Complex.normSq_sub]
    rfl
  have e2 : ‖∑ i, L i i‖ ^ 2 = ∑ i, ∑ j, (L i i * star (L j j)).re := by
    rw [← Complex.normSq_eq_norm_sq, ← Complex.ofReal_re (Complex.normSq _), ← Complex.mul_conj, map_sum, Finset.sum_mul_sum, Complex.re_sum]
    exact Finset.sum_congr rfl fun i _ => Complex.re_sum _ _
  unfold spread
  simp only [e, e2, Finset.sum_add_distrib, Finset.sum_sub_distrib, ← Finset.mul_sum, Finset.sum_const, Finset.card_univ, nsmul_eq_mul]
  ring

/-- **C153** The dissipation counts unless the Lindblad operator is a multiple of the identity. -/
theorem c153_spread (L : Matrix n n ℂ) : 0 ≤ spread L ∧ ((∀ z : ℂ, L ≠ z • (1 : Matrix n n ℂ)) → 0 < spread L) := by
  have hd : ∀ i, ‖L i i‖ ^ 2 ≤ ∑ j, ‖L i j‖ ^ 2 := fun i =>
    Finset.single_le_sum (f := fun j => ‖L i j‖ ^ 2) (fun j _ => by positivity) (Finset.mem_univ i)
  have h1 : 0 ≤ ∑ i, ∑ j, ‖L i j‖ ^ 2 - ∑ i, ‖L i i‖ ^ 2 := sub_nonneg.2 (Finset.sum_le_sum fun i _ => hd i)
  have h2 : 0 ≤ ∑ i, ∑ j, ‖L i i - L j j‖ ^ 2 := Finset.sum_nonneg fun i _ => Finset.sum_nonneg fun j _ => by positivity
  have h0 : 0 ≤ spread L := by rw [spread_eq]; positivity
  refine ⟨h0, fun hL => h0.lt_of_ne fun hz => ?_⟩
  rcases isEmpty_or_nonempty n with hn | ⟨⟨k⟩⟩
  · exact hL 0 (Subsingleton.elim _ _)
  have hc : (0 : ℝ) < Fintype.card n := by
    have := Fintype.card_pos_iff.mpr ⟨k⟩
    exact_mod_cast this
  rw [spread_eq] at hz
  have h3 : ∑ i, ∑ j, ‖L i j‖ ^ 2 - ∑ i, ‖L i i‖ ^ 2 = 0 := by nlinarith
  have h4 : ∑ i, ∑ j, ‖L i i - L j j‖ ^ 2 = 0 := by nlinarith [mul_nonneg hc.le h1]
  refine hL (L k k) ?_
  ext i j
  rw [Matrix.smul_apply, Matrix.one_apply, smul_eq_mul]
  split_ifs with hij
  · subst hij
    have h5 := (Finset.sum_eq_zero_iff_of_nonneg fun i _ => Finset.sum_nonneg fun j _ => by positivity).mp h4 i (Finset.mem_univ _)
    have h6 := (Finset.sum_eq_zero_iff_of_nonneg fun j _ => by positivity).mp h5 k (Finset.mem_univ _)
    rw [mul_one]
    exact sub_eq_zero.mp (norm_eq_zero.mp (pow_eq_zero_iff two_ne_zero |>.mp h6))
  · rw [← Finset.sum_sub_distrib] at h3
    have h5 := (Finset.sum_eq_zero_iff_of_nonneg fun i _ => sub_nonneg.2 (hd i)).mp h3 i (Finset.mem_univ _)
    have h6 : ‖L i j‖ ^ 2 + ‖L i i‖ ^ 2 ≤ ∑ j, ‖L i j‖ ^ 2 := by
      rw [← Finset.sum_pair (f := fun j => ‖L i j‖ ^ 2) (Ne.symm hij)]
      exact Finset.sum_le_sum_of_subset_of_nonneg (Finset.subset_univ _) fun _ _ _ => by positivity
    rw [mul_zero]
    exact norm_eq_zero.mp (pow_eq_zero_iff two_ne_zero |>.mp (by nlinarith [sq_nonneg ‖L i j‖]))

/-- **C153** No gate of an open system is perfect: the infidelity is positive as soon as one Lindblad operator which is not a multiple of the
identity has a positive rate in one step of positive duration. -/
theorem c153_imperfect (p : LPar n) (Ls : List (Matrix n n ℂ)) (times : List ℝ) (u x : Pulse) (h : OpenOk p Ls times u x) (T : Matrix n n ℂ)
    (hT : T ∈ Matrix.unitaryGroup n ℂ) (t : Fin times.length) (ht : 0 < times[t]) (q : ℝ × Matrix n n ℂ)
    (hq : q ∈ (weightsAt p Ls u x t).zip Ls) (hw : 0 < q.1) (hL : ∀ z : ℂ, q.2 ≠ z • (1 : Matrix n n ℂ)) :
    ∃ c : ℝ, lindCosts none T p times u x = .ok c ∧ 0 < c := by
  obtain ⟨c, h1, h2⟩ := c153_limit p Ls times u x h T hT
  refine ⟨c, h1, lt_of_lt_of_le ?_ h2⟩
  have hn : Nonempty n := by
    rcases isEmpty_or_nonempty n with hn | hn
    · exact absurd (Subsingleton.elim _ _) (hL 0)
    · exact hn
  have hd : (0 : ℝ) < (Fintype.card n : ℝ) ^ 2 := by
    have := Fintype.card_pos (α := n)
    positivity
  refine div_pos (sub_pos.2 (Real.exp_lt_one_iff.2 (neg_lt_zero.2 ?_))) hd
  have hr : ∀ s : Fin times.length, ∀ r ∈ (weightsAt p Ls u x s).zip Ls, 0 ≤ r.1 * spread r.2 := fun s r hr =>
    mul_nonneg ((h.weights s).2 _ (List.of_mem_zip hr).1) (c153_spread _).1
  have hs : ∀ s : Fin times.length, 0 ≤ (((weightsAt p Ls u x s).zip Ls).map fun q => q.1 * spread q.2).sum := fun s =>
    List.sum_nonneg fun y hy => by
      obtain ⟨r, hr', rfl⟩ := List.mem_map.1 hy
      exact hr s r hr'
  have hτ : ∀ s : Fin times.length, 0 ≤ times[s] := fun s => h.durations _ (List.getElem_mem _)
  refine Finset.sum_pos' (fun s _ => mul_nonneg (hτ s) (hs s)) ⟨t, Finset.mem_univ _, mul_pos ht ?_⟩
  refine lt_of_lt_of_le (mul_pos hw ((c153_spread q.2).2 hL)) ?_
  refine List.single_le_sum (fun y hy => ?_) _ (List.mem_map_of_mem (f := fun q : ℝ × Matrix n n ℂ => q.1 * spread q.2) hq)
  obtain ⟨r, hr', rfl⟩ := List.mem_map.1 hy
  exact hr t r hr'

/-- **C153** With constant rates the limit is the same for all pulses and all targets. -/
theorem c153_all_pulses (p : LPar n) (Ls : List (Matrix n n ℂ)) (times : List ℝ) (hc : p.diss.prefactor = none) :
    ∃ B : ℝ, B = (1 - Real.exp (-(times.sum * (Ls.map spread).sum))) / (Fintype.card n : ℝ) ^ 2 ∧
      ∀ (u x : Pulse) (T : Matrix n n ℂ), OpenOk p Ls times u x → T ∈ Matrix.unitaryGroup n ℂ →
        ∃ c : ℝ, lindCosts none T p times u x = .ok c ∧ B ≤ c := by
  refine ⟨_, rfl, fun u x T h hT => ?_⟩
  obtain ⟨c, h1, h2⟩ := c153_limit p Ls times u x h T hT
  refine ⟨c, h1, le_trans (le_of_eq ?_) h2⟩
  congr 4
  unfold erosion
  have e : ∀ t, (((weightsAt p Ls u x t).zip Ls).map fun q => q.1 * spread q.2).sum = (Ls.map spread).sum := by
    intro t
    unfold weightsAt
    rw [hc]
    show (((List.replicate Ls.length (1 : ℝ)).zip Ls).map fun q => q.1 * spread q.2).sum = _
    clear * -
    induction Ls with
    | nil => simp
    | cons L Ls ih =>
      simp only [List.length_cons, List.replicate_succ, List.zip_cons_cons, List.map_cons, List.sum_cons, one_mul, ih]
  simp only [e]
  rw [← Finset.sum_mul, ← List.sum_ofFn]
  congr 2
  exact (List.ofFn_getElem (xs := times)).symm

end

namespace Ex153

theorem dephase_ok (L : Lapack (Fin 2 × Fin 2)) (hE : L.ExpmOk) (w : ℝ) (hw : 0 ≤ w) :
    OpenOk (dephasePar L w) [!![1, 0; 0, -1]] [1] [[0]] [] :=
  ⟨Ex124.dephase_lindblads L w, by simp, rfl, rfl, by simp [dephasePar], by simp [dephasePar], by simp [dephasePar], rfl, hE, rfl, by simp,
    fun f hf => by cases hf; simpa using hw⟩

theorem dephase_erosion (L : Lapack (Fin 2 × Fin 2)) (w : ℝ) :
    erosion [!![1, 0; 0, -1]] [1] (weightsAt (dephasePar L w) [!![1, 0; 0, -1]] [[0]] []) = 4 * w := by
  simp [erosion, weightsAt, dephasePar, spread, Fin.sum_univ_two]
  ring

end Ex153

/-- **C153** The limit has the right order: for every strength of the dissipation there is an open system whose infidelity exceeds the limit
at most in second order. -/
theorem c153_sharp (L : Lapack (Fin 2 × Fin 2)) (hE : L.ExpmOk) (s : ℝ) (hs : 0 ≤ s) :
    ∃ (p : LPar (Fin 2)) (Ls : List (Matrix (Fin 2) (Fin 2) ℂ)) (c : ℝ), OpenOk p Ls [1] [[0]] [] ∧
      erosion Ls [1] (weightsAt p Ls [[0]] []) = s ∧ lindCosts none (1 : Matrix (Fin 2) (Fin 2) ℂ) p [1] [[0]] [] = .ok c ∧
      c ≤ (1 - Real.exp (-s)) / 4 + s ^ 2 / 16 := by
  refine ⟨dephasePar L (s / 4), _, _, Ex153.dephase_ok L hE _ (by positivity), by rw [Ex153.dephase_erosion]; ring,
    Ex124.dephase_value L hE _, ?_⟩
  have e : Real.exp (-s) = Real.exp (-(2 * (s / 4))) ^ 2 := by
    rw [← Real.exp_nat_mul]
    congr 1
    push_cast
    ring
  have h1 := Real.add_one_le_exp (-(2 * (s / 4)))
  have h2 : Real.exp (-(2 * (s / 4))) ≤ 1 := Real.exp_le_one_iff.mpr (by linarith)
  rw [e]
  generalize Real.exp (-(2 * (s / 4))) = y at *
  nlinarith

/-- **C153** On a computational subspace there is no such limit: dephasing of any strength does not affect the ground state. -/
theorem c153_subspace (L : Lapack (Fin 2 × Fin 2)) (hE : L.ExpmOk) (s : ℝ) (hs : 0 ≤ s) :
    ∃ (p : LPar (Fin 2)) (Ls : List (Matrix (Fin 2) (Fin 2) ℂ)), OpenOk p Ls [1] [[0]] [] ∧
      erosion Ls [1] (weightsAt p Ls [[0]] []) = s ∧
      lindCosts (some [(0 : Fin 2)]) (1 : Matrix (CompIdx (some [(0 : Fin 2)])) (CompIdx (some [(0 : Fin 2)])) ℂ) p [1] [[0]] [] = .ok 0 := by
  have ho := Ex153.dephase_ok L hE (s / 4) (by positivity)
  refine ⟨dephasePar L (s / 4), _, ho, by rw [Ex153.dephase_erosion]; ring, ?_⟩
  obtain ⟨G, f, h1, h2, h3, -, h5, -⟩ := ho.run
  have h7 := h3 1 le_rfl
  unfold lindCosts opCostsSup
  rw [h1]
  simp only [bind, Except.bind]
  rw [last_ok (l := f) (by rw [List.getLast?_eq_getElem?, h2]; exact h7)]
  show Except.ok (1 - entFidSup (some [(0 : Fin 2)]) 1 _) = _
  rw [Ex151.ground_fidelity]
  have hG : G 0 *ᵥ Matrix.vec !![1, 0; 0, 0] = (0 : ℂ) • Matrix.vec !![1, 0; 0, 0] := by
    have hZ : (!![1, 0; 0, -1] : Matrix (Fin 2) (Fin 2) ℂ)ᴴ = !![1, 0; 0, -1] := by
      ext i j; fin_cases i <;> fin_cases j <;> simp
    rw [h5 0]
    ext ⟨j, i⟩
    fin_cases i <;> fin_cases j <;> simp [flip, Matrix.vec, master, LPar.hamAt, dephasePar, hamiltonian, weightsAt, hZ]
    exact Or.inr (by norm_num)
  have hexp := exp_eigen hG
  simp only [List.take_of_length_le (show (List.finRange [(1 : ℝ)].length).length ≤ 1 by simp)]
  rw [show (List.finRange [(1 : ℝ)].length) = [0] from rfl]
  simp only [List.map_cons, List.map_nil, List.foldl_cons, List.foldl_nil, Matrix.mul_one]
  simp only [show (([(1 : ℝ)][(0 : Fin [(1 : ℝ)].length)] : ℝ) : ℂ) = 1 by simp, one_smul, hexp]
  simp [flip]

/-- A driven qubit which decays and dephases for a duration of 6: no pulse reaches any gate better than `(1 - exp(-36)) / 4`. -/
example : ∃ L : Lapack (Fin 2 × Fin 2), ∀ (a b c d e f : ℝ) (T : Matrix (Fin 2) (Fin 2) ℂ), T ∈ Matrix.unitaryGroup (Fin 2) ℂ →
    ∃ I : ℝ, lindCosts none T (decayPar L none none) [1, 2, 3] [[a, b], [c, d], [e, f]] [] = .ok I ∧ (1 - Real.exp (-36)) / 4 ≤ I := by
  obtain ⟨L, -, -, hE, -⟩ := lapack_exists (Fin 2 × Fin 2)
  refine ⟨L, fun a b c d e f T hT => ?_⟩
  obtain ⟨B, h1, h2⟩ := c153_all_pulses (decayPar L none none) [!![0, 1; 0, 0], !![1, 0; 0, -1]] [1, 2, 3] rfl
  obtain ⟨I, h3, h4⟩ := h2 _ [] T (Ex152.constant_ok L hE a b c d e f) hT
  refine ⟨I, h3, le_trans (le_of_eq ?_) h4⟩
  rw [h1]
  simp [spread, Fin.sum_univ_two]
  norm_num

/-- A qubit which dephases at an arbitrarily small rate. -/
example : ∃ L : Lapack (Fin 2 × Fin 2), ∀ (w : ℝ) (T : Matrix (Fin 2) (Fin 2) ℂ), 0 < w → T ∈ Matrix.unitaryGroup (Fin 2) ℂ →
    ∃ c : ℝ, lindCosts none T (dephasePar L w) [1] [[0]] [] = .ok c ∧ 0 < c := by
  obtain ⟨L, -, -, hE, -⟩ := lapack_exists (Fin 2 × Fin 2)
  refine ⟨L, fun w T hw hT => c153_imperfect _ _ _ _ _ (Ex153.dephase_ok L hE w hw.le) T hT 0 (by simp) (w, !![1, 0; 0, -1])
    (by simp [weightsAt, dephasePar]) hw fun z hz => ?_⟩
  have h0 := congrFun (congrFun hz 0) 0
  have h1 := congrFun (congrFun hz 1) 1
  simp at h0 h1
  rw [← h0] at h1
  norm_num at h1

end Verif.Cost
