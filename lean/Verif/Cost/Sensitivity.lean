import Verif.Cost.Grape

/-!
# C117: how much noise and errors of the amplitudes can change the infidelity

Bounds for `OperationInfidelity` and `OperationNoiseInfidelity` (cost_functions.py:1171-1275 and 1310-1454) of closed systems: the
infidelity changes at most twice as much as the accumulated error of the Hamiltonian, its gradient is bounded, and the infidelity
between the evolution with and without noise is of second order in the noise.
-/

namespace Verif.Cost
open Verif Verif.Operator Verif.Solver Matrix MeasureTheory

section
open scoped Matrix.Norms.L2Operator
variable {n : Type} [Fintype n] [DecidableEq n]

/-! ## Evolutions -/

theorem exp_lip {A B : Matrix n n ℂ} (hA : Aᴴ = -A) (hB : Bᴴ = -B) :
    ‖NormedSpace.exp A - NormedSpace.exp B‖ ≤ ‖A - B‖ := by
  let _ : NormedAlgebra ℝ (Matrix n n ℂ) := NormedAlgebra.restrictScalars ℝ ℂ _
  have hu : ∀ {A : Matrix n n ℂ}, Aᴴ = -A → ∀ s : ℝ, NormedSpace.exp (s • A) ∈ unitary (Matrix n n ℂ) := by
    intro A hA s
    refine exp_skew_unitary ?_
    rw [Matrix.conjTranspose_smul, hA]
    simp
  have hinv : NormedSpace.exp ((-1 : ℝ) • B) * NormedSpace.exp B = 1 := by
    have := Matrix.exp_add_of_commute ((-1 : ℝ) • B) B ((Commute.refl B).smul_left _)
    rw [← this]
    simp
  set f : ℝ → Matrix n n ℂ := fun s => NormedSpace.exp (s • A) * NormedSpace.exp ((-s) • B) with hf
  have hd : ∀ s : ℝ, HasDerivAt f (NormedSpace.exp (s • A) * (A - B) * NormedSpace.exp ((-s) • B)) s := by
    intro s
    have h1 : HasDerivAt (fun s : ℝ => NormedSpace.exp (s • A)) (NormedSpace.exp (s • A) * A) s := hasDerivAt_exp_smul_const A s
    have h2 : HasDerivAt (fun s : ℝ => NormedSpace.exp ((-s) • B)) (-(B * NormedSpace.exp ((-s) • B))) s := by
      have h3 := (hasDerivAt_exp_smul_const' B (-s : ℝ)).scomp s (hasDerivAt_neg s)
      simpa [Function.comp_def] using h3
    refine (h1.fun_mul h2).congr_deriv ?_
    noncomm_ring
  have hb := Convex.norm_image_sub_le_of_norm_hasDerivWithin_le (f := f) (C := ‖A - B‖) (s := Set.univ)
    (fun s _ => (hd s).hasDerivWithinAt) (fun s _ => by
      rw [CStarRing.norm_mul_mem_unitary _ (hu hB _), CStarRing.norm_mem_unitary_mul _ (hu hA _)]) convex_univ
    (Set.mem_univ 0) (Set.mem_univ 1)
  have e : NormedSpace.exp A - NormedSpace.exp B = (f 1 - f 0) * NormedSpace.exp B := by
    rw [hf]
    simp only [one_smul, zero_smul, neg_zero, NormedSpace.exp_zero, one_mul, sub_mul, Matrix.mul_assoc, hinv, mul_one]
  have hB' := hu hB 1
  rw [one_smul] at hB'
  rw [e, CStarRing.norm_mul_mem_unitary _ hB']
  simpa using hb

theorem foldl_lip {N : Nat} : ∀ (P Q : Fin N → Matrix n n ℂ) (I J : Matrix n n ℂ), (∀ t, P t ∈ Matrix.unitaryGroup n ℂ) →
    (∀ t, Q t ∈ Matrix.unitaryGroup n ℂ) → J ∈ Matrix.unitaryGroup n ℂ →
    ‖(List.ofFn P).foldl (fun F P => P * F) I - (List.ofFn Q).foldl (fun F P => P * F) J‖ ≤ ‖I - J‖ + ∑ t, ‖P t - Q t‖ := by
  induction N with
  | zero => intro P Q I J _ _ _; simp
  | succ N ih =>
    intro P Q I J hP hQ hJ
    rw [List.ofFn_succ, List.ofFn_succ, List.foldl_cons, List.foldl_cons, Fin.sum_univ_succ]
    refine (ih _ _ (P 0 * I) (Q 0 * J) (fun t => hP _) (fun t => hQ _) (mul_mem (hQ 0) hJ)).trans ?_
    have h1 : ‖P 0 * I - Q 0 * J‖ ≤ ‖I - J‖ + ‖P 0 - Q 0‖ := by
      have e : P 0 * I - Q 0 * J = P 0 * (I - J) + (P 0 - Q 0) * J := by noncomm_ring
      rw [e]
      refine (norm_add_le _ _).trans ?_
      rw [CStarRing.norm_mem_unitary_mul _ (show P 0 ∈ unitary _ from hP 0),
        CStarRing.norm_mul_mem_unitary _ (show J ∈ unitary _ from hJ)]
    linarith

/-- The accumulated strength of the error `δ` of the amplitudes and of the noise `η`. -/
noncomputable def accumulated {a b T : Nat} (σ : Fin T → ℝ) (C : Fin a → Matrix n n ℂ) (δ : Fin T → Fin a → ℝ)
    (N : Fin b → Matrix n n ℂ) (η : Fin b → Fin T → ℝ) : ℝ :=
  ∑ t, |σ t| * (∑ c, |δ t c| * ‖C c‖ + ∑ j, |η j t| * ‖N j‖)

theorem noisyStep_unitary (p : SPar n n) (hN : List (Matrix n n ℂ)) (hd : ∀ H ∈ p.drift, H.IsHermitian)
    (hc : ∀ H ∈ p.ctrl, H.IsHermitian) (hn : ∀ H ∈ hN, H.IsHermitian) (τ : List ℝ) (u : Pulse)
    (z : Fin hN.length → Fin (p.xTimes τ).length → ℝ) (t : Fin (p.xTimes τ).length) :
    (hamiltonian (p.drift.getD t 0) p.ctrl (u.getD t []) + ∑ j, ((z j t : ℝ) : ℂ) • hN[j]).IsHermitian ∧
    noisyStep p hN τ u z t ∈ Matrix.unitaryGroup n ℂ := by
  have hdt : (p.drift.getD t 0).IsHermitian := by
    rw [List.getD_eq_getElem?_getD]
    cases h : p.drift[(t : Nat)]? with
    | none => exact Matrix.isHermitian_zero
    | some H => exact hd _ (List.mem_of_getElem? h)
  have hH : (hamiltonian (p.drift.getD t 0) p.ctrl (u.getD t []) + ∑ j, ((z j t : ℝ) : ℂ) • hN[j]).IsHermitian := by
    refine (hamiltonian_isHermitian _ hdt hc).add ?_
    unfold Matrix.IsHermitian
    rw [Matrix.conjTranspose_sum]
    refine Finset.sum_congr rfl fun j _ => ?_
    have hj : (hN[j])ᴴ = hN[j] := hn _ (List.getElem_mem j.2)
    rw [Matrix.conjTranspose_smul, hj]
    simp
  refine ⟨hH, exp_skew_unitary ?_⟩
  rw [Matrix.conjTranspose_smul, skew_of_hermitian hH]
  simp

theorem noisyFinal_lip (p : SPar n n) (hN : List (Matrix n n ℂ)) (hd : ∀ H ∈ p.drift, H.IsHermitian)
    (hc : ∀ H ∈ p.ctrl, H.IsHermitian) (hn : ∀ H ∈ hN, H.IsHermitian) (hi : p.init ∈ Matrix.unitaryGroup n ℂ) (τ : List ℝ)
    (U V : Fin (p.xTimes τ).length → Fin p.ctrl.length → ℝ) (z w : Fin hN.length → Fin (p.xTimes τ).length → ℝ) :
    ‖noisyFinal p hN τ (rowsOf U) z - noisyFinal p hN τ (rowsOf V) w‖ ≤
      accumulated (p.xTimes τ).get p.ctrl.get (U - V) hN.get (z - w) := by
  have h := foldl_lip (noisyStep p hN τ (rowsOf U) z) (noisyStep p hN τ (rowsOf V) w) p.init p.init
    (fun t => (noisyStep_unitary p hN hd hc hn τ _ z t).2) (fun t => (noisyStep_unitary p hN hd hc hn τ _ w t).2) hi
  rw [sub_self, norm_zero, zero_add] at h
  refine h.trans (Finset.sum_le_sum fun t _ => ?_)
  have hz := (noisyStep_unitary p hN hd hc hn τ (rowsOf U) z t).1
  have hw := (noisyStep_unitary p hN hd hc hn τ (rowsOf V) w t).1
  unfold noisyStep
  refine (exp_lip (by rw [Matrix.conjTranspose_smul, skew_of_hermitian hz]; simp)
    (by rw [Matrix.conjTranspose_smul, skew_of_hermitian hw]; simp)).trans ?_
  rw [← smul_sub, ← smul_sub, norm_smul, norm_smul]
  simp only [Complex.norm_real, norm_neg, Complex.norm_I, one_mul, Real.norm_eq_abs]
  refine mul_le_mul_of_nonneg_left ?_ (abs_nonneg _)
  rw [rowsOf_get U t t.2, rowsOf_get V t t.2, hamiltonian_eq_sum _ _ _ (by simp), hamiltonian_eq_sum _ _ _ (by simp)]
  have e : ∀ (D a b x y : Matrix n n ℂ), D + a + x - (D + b + y) = (a - b) + (x - y) := by intros; abel
  rw [e, ← Finset.sum_sub_distrib, ← Finset.sum_sub_distrib]
  refine (norm_add_le _ _).trans (add_le_add ((norm_sum_le _ _).trans ?_) ((norm_sum_le _ _).trans ?_))
  · refine Finset.sum_le_sum fun c _ => ?_
    rw [← sub_smul, norm_smul, ← Complex.ofReal_sub, Complex.norm_real, Real.norm_eq_abs]
    simp
  · refine Finset.sum_le_sum fun j _ => ?_
    rw [← sub_smul, norm_smul, ← Complex.ofReal_sub, Complex.norm_real, Real.norm_eq_abs]
    simp

theorem noisyFinal_lip_noise (p : SPar n n) (hN : List (Matrix n n ℂ)) (hd : ∀ H ∈ p.drift, H.IsHermitian)
    (hc : ∀ H ∈ p.ctrl, H.IsHermitian) (hn : ∀ H ∈ hN, H.IsHermitian) (hi : p.init ∈ Matrix.unitaryGroup n ℂ) (τ : List ℝ)
    (u : Pulse) (z : Fin hN.length → Fin (p.xTimes τ).length → ℝ) :
    ‖noisyFinal p hN τ u z - noisyFinal p hN τ u 0‖ ≤
      ∑ t, |(p.xTimes τ).get t| * ∑ j, |z j t| * ‖hN.get j‖ := by
  have h := foldl_lip (noisyStep p hN τ u z) (noisyStep p hN τ u 0) p.init p.init
    (fun t => (noisyStep_unitary p hN hd hc hn τ _ z t).2) (fun t => (noisyStep_unitary p hN hd hc hn τ _ 0 t).2) hi
  rw [sub_self, norm_zero, zero_add] at h
  refine h.trans (Finset.sum_le_sum fun t _ => ?_)
  have hz := (noisyStep_unitary p hN hd hc hn τ u z t).1
  have hw := (noisyStep_unitary p hN hd hc hn τ u 0 t).1
  unfold noisyStep
  refine (exp_lip (by rw [Matrix.conjTranspose_smul, skew_of_hermitian hz]; simp)
    (by rw [Matrix.conjTranspose_smul, skew_of_hermitian hw]; simp)).trans ?_
  rw [← smul_sub, ← smul_sub, norm_smul, norm_smul]
  simp only [Complex.norm_real, norm_neg, Complex.norm_I, one_mul, Real.norm_eq_abs]
  refine mul_le_mul_of_nonneg_left ?_ (abs_nonneg _)
  rw [add_sub_add_left_eq_sub, ← Finset.sum_sub_distrib]
  refine (norm_sum_le _ _).trans (Finset.sum_le_sum fun j _ => ?_)
  rw [← sub_smul, norm_smul, ← Complex.ofReal_sub, Complex.norm_real, Real.norm_eq_abs]
  simp

/-! ## Fidelities -/

theorem entFid_lip (cl : Closest) (cs : Option (List n)) (hcs : ∀ l, cs = some l → l.Nodup) (mcu : Bool) (hm : mcu = false ∨ cs = none)
    {T : Matrix (CompIdx cs) (CompIdx cs) ℂ} (hT : T ∈ Matrix.unitaryGroup (CompIdx cs) ℂ) {U V : Matrix n n ℂ}
    (hU : ‖U‖ ≤ 1) (hV : ‖V‖ ≤ 1) : |entFid cl cs T U mcu - entFid cl cs T V mcu| ≤ 2 * ‖U - V‖ := by
  have hb : ∀ X : Matrix n n ℂ, ‖(Tᴴ * truncTo cl cs mcu X).trace‖ ≤ dim cs * ‖X‖ := by
    intro X
    have := trace_trunc_le cl cs hcs hT X
    rw [Matrix.trace_mul_comm, truncTo_eq cl cs mcu hm]
    rwa [truncTo_eq cl cs false (Or.inl rfl)] at this
  have hs : (Tᴴ * truncTo cl cs mcu U).trace - (Tᴴ * truncTo cl cs mcu V).trace = (Tᴴ * truncTo cl cs mcu (U - V)).trace := by
    rw [← Matrix.trace_sub, ← Matrix.mul_sub]
    simp only [truncTo_eq cl cs mcu hm]
    rfl
  unfold entFid
  have hd := dim_pos cs
  set a := (Tᴴ * truncTo cl cs mcu U).trace
  set b := (Tᴴ * truncTo cl cs mcu V).trace
  have h1 : |‖a‖ - ‖b‖| ≤ dim cs * ‖U - V‖ := (abs_norm_sub_norm_le a b).trans (by rw [hs]; exact hb _)
  have h2 : ‖a‖ ≤ dim cs := (hb U).trans (by nlinarith)
  have h3 : ‖b‖ ≤ dim cs := (hb V).trans (by nlinarith)
  rw [← sub_div, ← sub_div, abs_div, abs_div, abs_of_nonneg hd]
  rcases hd.eq_or_lt with h0 | h0
  · rw [← h0]
    simp
  rw [div_div, div_le_iff₀ (by positivity), sq_sub_sq, abs_mul, abs_of_nonneg (by positivity : 0 ≤ ‖a‖ + ‖b‖)]
  nlinarith [norm_nonneg (U - V), abs_nonneg (‖a‖ - ‖b‖), mul_nonneg (sub_nonneg.mpr h1) (add_nonneg (norm_nonneg a) (norm_nonneg b)),
    mul_nonneg (mul_nonneg hd (norm_nonneg (U - V))) (sub_nonneg.mpr h2), mul_nonneg (mul_nonneg hd (norm_nonneg (U - V))) (sub_nonneg.mpr h3)]

/-- The infidelity between two unitaries is at most the square of their distance. -/
theorem entFid_quadratic (cl : Closest) (mcu : Bool) [Nonempty n] {U V : Matrix n n ℂ} (hU : U ∈ Matrix.unitaryGroup n ℂ)
    (hV : V ∈ Matrix.unitaryGroup n ℂ) : 1 - entFid cl none U V mcu ≤ ‖U - V‖ ^ 2 := by
  have hd : (0 : ℝ) < Fintype.card n := by exact_mod_cast Fintype.card_pos
  have hUU : Uᴴ * U = 1 := Matrix.mem_unitaryGroup_iff'.mp hU
  have hVV : Vᴴ * V = 1 := Matrix.mem_unitaryGroup_iff'.mp hV
  set x := (Uᴴ * V).trace with hx
  have h1 : ((U - V)ᴴ * (U - V)).trace.re = 2 * Fintype.card n - 2 * x.re := by
    have e : (U - V)ᴴ * (U - V) = 1 + 1 - Uᴴ * V - (Uᴴ * V)ᴴ := by
      rw [Matrix.conjTranspose_sub, Matrix.sub_mul, Matrix.mul_sub, Matrix.mul_sub, hUU, hVV, Matrix.conjTranspose_mul,
        Matrix.conjTranspose_conjTranspose]
      abel
    rw [e, Matrix.trace_sub, Matrix.trace_sub, Matrix.trace_add, Matrix.trace_conjTranspose, Matrix.trace_one, ← hx]
    simp
    ring
  have h2 : ((U - V)ᴴ * (U - V)).trace.re ≤ Fintype.card n * ‖U - V‖ ^ 2 := by
    refine (Complex.re_le_norm _).trans ((trace_norm_le _).trans (le_of_eq ?_))
    rw [Matrix.l2_opNorm_conjTranspose_mul_self, sq]
  have h3 : entFid cl none U V mcu = ‖x‖ ^ 2 / Fintype.card n / Fintype.card n := rfl
  have h4 : (x.re) ^ 2 ≤ ‖x‖ ^ 2 := by
    rw [← sq_abs]
    exact pow_le_pow_left₀ (abs_nonneg _) (Complex.abs_re_le_norm x) 2
  rw [h3, div_div]
  rcases le_total 1 (‖U - V‖ ^ 2) with h | h
  · have : 0 ≤ ‖x‖ ^ 2 / (Fintype.card n * Fintype.card n : ℝ) := by positivity
    linarith
  · have h5 : Fintype.card n * (1 - ‖U - V‖ ^ 2 / 2) ≤ x.re := by linarith
    have h6 : (Fintype.card n * (1 - ‖U - V‖ ^ 2 / 2)) ^ 2 ≤ ‖x‖ ^ 2 :=
      (pow_le_pow_left₀ (by nlinarith) h5 2).trans h4
    have h7 : 1 - ‖U - V‖ ^ 2 ≤ ‖x‖ ^ 2 / (Fintype.card n * Fintype.card n : ℝ) := by
      rw [le_div_iff₀ (by positivity)]
      nlinarith [sq_nonneg (‖U - V‖ ^ 2), mul_pos hd hd]
    linarith

theorem opCost_value (p : SPar n n) (τ : List ℝ) (hv : p.Valid τ) (hst : Stable p.cfg) (cl : Closest) (cs : Option (List n))
    (T : Matrix (CompIdx cs) (CompIdx cs) ℂ) (mcu : Bool) (u : Pulse) (s : St n n) (hr : Ready p τ u s) :
    (costOn (opCosts cl cs T mcu) p.cfg s).1 = .ok (1 - entFid cl cs T (p.final τ u) mcu) := by
  obtain ⟨fc, s1, c1, c2, -⟩ := hr.fwd hv hst
  unfold costOn
  rw [c1]
  simp only
  unfold opCosts
  rw [last_ok (final_last c2)]
  rfl

/-! ## The property -/

/-- **C117** (amplitudes) The infidelity returned by `OperationInfidelity.costs` changes at most twice as much as the accumulated error
of the amplitudes, and the entries of its gradient are at most twice the duration of the step times the norm of the control. -/
theorem c117_amplitudes (p : SPar n n) (τ : List ℝ) (cl : Closest) (cs : Option (List n)) (T : Matrix (CompIdx cs) (CompIdx cs) ℂ)
    (mcu : Bool) (hs : NoisySystem p τ [] cs T mcu false) (happ : p.approx = .none) (hF : p.L.FrechetOk)
    (hreach : ∀ U : Fin (p.xTimes τ).length → Fin p.ctrl.length → ℝ, ∃ y, ampsOf p.cfg τ y = some (rowsOf U)) :
    ∃ (I : (Fin (p.xTimes τ).length → Fin p.ctrl.length → ℝ) → ℝ)
      (g : (Fin (p.xTimes τ).length → Fin p.ctrl.length → ℝ) → Fin (p.xTimes τ).length → Fin p.ctrl.length → ℝ),
      (∀ U s, Ready p τ (rowsOf U) s → (costOn (opCosts cl cs T mcu) p.cfg s).1 = .ok (I U)) ∧
      (∀ U s, Ready p τ (rowsOf U) s →
        (gradOn (fun tr => opGrad cl cs T mcu tr.fwd tr.dP tr.rev) p.cfg s).1 = .ok (rowsOf (g U))) ∧
      (∀ U V, |I U - I V| ≤ 2 * ∑ t, |(p.xTimes τ).get t| * ∑ c, |U t c - V t c| * ‖p.ctrl.get c‖) ∧
      ∀ U t c, |g U t c| ≤ 2 * (|(p.xTimes τ).get t| * ‖p.ctrl.get c‖) := by
  have hcs : cs ≠ some [] := by
    rintro rfl
    exact (hs.states.some : Fin 0).elim0
  have htot := fun U => c93_operation_total p τ hs.valid hs.stable hs.method happ hs.expm hF hs.times hreach cl cs hcs mcu hs.plain T U
  choose g h1 h2 L h3 h4 using htot
  have hT : T ∈ Matrix.unitaryGroup (CompIdx cs) ℂ := hs.target.resolve_left (by simp)
  have hlip : ∀ U V : Fin (p.xTimes τ).length → Fin p.ctrl.length → ℝ,
      |(1 - entFid cl cs T (p.final τ (rowsOf U)) mcu) - (1 - entFid cl cs T (p.final τ (rowsOf V)) mcu)| ≤
        2 * ∑ t, |(p.xTimes τ).get t| * ∑ c, |U t c - V t c| * ‖p.ctrl.get c‖ := by
    intro U V
    rw [clean_final p τ hs.method hs.expm [], clean_final p τ hs.method hs.expm [], sub_sub_sub_cancel_left, abs_sub_comm]
    refine (entFid_lip cl cs hs.distinct mcu hs.plain hT
      (norm_unitary_le (noisyFinal_unitary p [] τ hs.valid hs.drift hs.ctrl hs.noise hs.init _ _))
      (norm_unitary_le (noisyFinal_unitary p [] τ hs.valid hs.drift hs.ctrl hs.noise hs.init _ _))).trans ?_
    refine mul_le_mul_of_nonneg_left ((noisyFinal_lip p [] hs.drift hs.ctrl hs.noise hs.init τ U V 0 0).trans (le_of_eq ?_)) (by norm_num)
    simp [accumulated]
  refine ⟨fun U => 1 - entFid cl cs T (p.final τ (rowsOf U)) mcu, g, fun U s hr => h2 U U s hr, h1, hlip, fun U t c => ?_⟩
  have hl : HasDerivAt (fun x : ℝ => 1 - entFid cl cs T (p.final τ (rowsOf (U + x • unitAmp t c))) mcu) (g U t c) 0 := by
    have hline : HasDerivAt (fun x : ℝ => U + x • unitAmp t c) (unitAmp t c) 0 := by
      simpa using ((hasDerivAt_id (0 : ℝ)).smul_const (unitAmp t c)).const_add U
    have h5 := h3 U
    have h6 : HasFDerivAt (fun V : Fin (p.xTimes τ).length → Fin p.ctrl.length → ℝ =>
        1 - entFid cl cs T (p.final τ (rowsOf V)) mcu) (L U) (U + (0 : ℝ) • unitAmp t c) := by simpa using h5
    have h7 := h6.comp_hasDerivAt (0 : ℝ) hline
    refine h7.congr_deriv ?_
    rw [h4, Finset.sum_eq_single t, Finset.sum_eq_single c]
    · simp [unitAmp]
    · intro b _ hb; simp [unitAmp, hb]
    · simp
    · intro b _ hb
      refine Finset.sum_eq_zero fun k _ => ?_
      simp [unitAmp, hb]
    · simp
  have hb := hl.le_of_lip' (C := 2 * (|(p.xTimes τ).get t| * ‖p.ctrl.get c‖)) (by positivity)
    (Filter.Eventually.of_forall fun x => ?_)
  · simpa using hb
  · rw [Real.norm_eq_abs]
    refine (hlip _ _).trans (le_of_eq ?_)
    rw [Finset.sum_eq_single t, Finset.sum_eq_single c]
    · simp [unitAmp]
      ring
    · intro b _ hb; simp [unitAmp, hb]
    · simp
    · intro b _ hb
      rw [Finset.sum_eq_zero fun k _ => ?_, mul_zero]
      simp [unitAmp, hb]
    · simp

/-- **C117** (perfect pulses) If a pulse implements the target, up to a global phase, then its gradient vanishes, and errors of the
amplitudes change the infidelity only in second order. -/
theorem c117_perfect (p : SPar n n) (τ : List ℝ) (cl : Closest) (T : Matrix n n ℂ) (mcu : Bool)
    (hs : NoisySystem p τ [] none T mcu false) (happ : p.approx = .none) (hF : p.L.FrechetOk)
    (hreach : ∀ U : Fin (p.xTimes τ).length → Fin p.ctrl.length → ℝ, ∃ y, ampsOf p.cfg τ y = some (rowsOf U))
    (U : Fin (p.xTimes τ).length → Fin p.ctrl.length → ℝ) (s : St n n) (hr : Ready p τ (rowsOf U) s)
    (h0 : (costOn (opCosts cl (none : Option (List n)) T mcu) p.cfg s).1 = .ok 0) :
    (gradOn (fun tr => opGrad cl (none : Option (List n)) T mcu tr.fwd tr.dP tr.rev) p.cfg s).1 =
      .ok (rowsOf fun (_ : Fin (p.xTimes τ).length) (_ : Fin p.ctrl.length) => 0) ∧
    ∀ V s', Ready p τ (rowsOf V) s' → ∃ c, (costOn (opCosts cl (none : Option (List n)) T mcu) p.cfg s').1 = .ok c ∧ 0 ≤ c ∧
      c ≤ (∑ t, |(p.xTimes τ).get t| * ∑ c, |U t c - V t c| * ‖p.ctrl.get c‖) ^ 2 := by
  have hn : Nonempty n := hs.states
  have hT : T ∈ Matrix.unitaryGroup n ℂ := hs.target.resolve_left (by simp)
  have hu := fun u => noisyFinal_unitary p [] τ hs.valid hs.drift hs.ctrl hs.noise hs.init u 0
  have hfid : entFid cl (n := n) none T (p.final τ (rowsOf U)) mcu = 1 := by
    have := opCost_value p τ hs.valid hs.stable cl none T mcu _ s hr
    rw [h0] at this
    simp only [Except.ok.injEq] at this
    linarith
  have hle : ∀ V : Fin (p.xTimes τ).length → Fin p.ctrl.length → ℝ,
      0 ≤ 1 - entFid cl (n := n) none T (p.final τ (rowsOf V)) mcu := fun V => by
    have := (c43_range cl mcu T (p.final τ (rowsOf V)) hT (by rw [clean_final p τ hs.method hs.expm []]; exact hu _)).2
    linarith
  obtain ⟨g, h1, -, L, h3, h4⟩ := c93_operation_total p τ hs.valid hs.stable hs.method happ hs.expm hF hs.times hreach cl none
    (by simp) mcu hs.plain T U
  constructor
  · rw [h1 s hr]
    have hmin : IsLocalMin (fun V : Fin (p.xTimes τ).length → Fin p.ctrl.length → ℝ =>
        1 - entFid cl (n := n) none T (p.final τ (rowsOf V)) mcu) U := by
      refine Filter.Eventually.of_forall fun V => ?_
      show 1 - entFid cl (n := n) none T (p.final τ (rowsOf U)) mcu ≤ _
      rw [hfid, sub_self]
      exact hle V
    have hL : L = 0 := hmin.hasFDerivAt_eq_zero h3
    congr 2
    funext t c
    have h5 := h4 (unitAmp t c)
    rw [hL, Finset.sum_eq_single t, Finset.sum_eq_single c] at h5
    · simpa [unitAmp] using h5.symm
    · intro b _ hb; simp [unitAmp, hb]
    · simp
    · intro b _ hb
      refine Finset.sum_eq_zero fun k _ => ?_
      simp [unitAmp, hb]
    · simp
  · intro V s' hr'
    refine ⟨_, opCost_value p τ hs.valid hs.stable cl none T mcu _ s' hr', hle V, ?_⟩
    obtain ⟨z, hz, e⟩ := (c43_one_iff cl mcu T _ hT (by rw [clean_final p τ hs.method hs.expm []]; exact hu _)).mp hfid
    have e2 : entFid cl (n := n) none T (p.final τ (rowsOf V)) mcu =
        entFid cl (n := n) none (p.final τ (rowsOf U)) (p.final τ (rowsOf V)) mcu := by
      have := c43_phase cl mcu T (p.final τ (rowsOf V)) 1 z (by simp) hz
      rw [← e, one_smul] at this
      exact this.symm
    rw [e2, clean_final p τ hs.method hs.expm [], clean_final p τ hs.method hs.expm []]
    refine (entFid_quadratic cl mcu (hu _) (hu _)).trans (pow_le_pow_left₀ (norm_nonneg _) ?_ 2)
    refine (noisyFinal_lip p [] hs.drift hs.ctrl hs.noise hs.init τ U V 0 0).trans (le_of_eq ?_)
    simp [accumulated]

/-- **C117** (noise) With a fixed target the noise changes the infidelity at most by twice the mean of the accumulated noise. -/
theorem c117_noise (p : SPar n n) (τ : List ℝ) (cl : Closest) (cs : Option (List n)) (T : Matrix (CompIdx cs) (CompIdx cs) ℂ)
    (mcu : Bool) (M : MC n n) (hs : NoisySystem p τ M.hNoise cs T mcu false) (hb : M.base = p.cfg) (hp : M.ProcsOk)
    (ha : M.noiseAmp = none) (h0 : M.samples.d0 = M.hNoise.length) (h1 : M.samples.d1 = M.nTraces)
    (h2 : M.samples.d2 = (p.xTimes τ).length) (hK : 0 < M.nTraces) (y u y' x : Pulse) (hu : ampsOf p.cfg τ y = some u) :
    ∃ c c₀, mcCosts cl cs T mcu false M (p.xTimes τ) y' x u = .ok c ∧
      (∀ s, Ready p τ u s → (costOn (opCosts cl cs T mcu) p.cfg s).1 = .ok c₀) ∧
      |c - c₀| ≤ 2 * ((∑ k : Fin M.nTraces, ∑ t, |(p.xTimes τ).get t| * ∑ j : Fin M.hNoise.length, |M.samples.val j k t| * ‖M.hNoise.get j‖) / M.nTraces) := by
  have hT : T ∈ Matrix.unitaryGroup (CompIdx cs) ℂ := hs.target.resolve_left (by simp)
  have hK' : (0 : ℝ) < M.nTraces := by exact_mod_cast hK
  refine ⟨_, _, mcCosts_value p τ hs.valid hs.stable hs.method hs.expm hs.times M hb hp ha h0 h1 h2 cl cs T mcu false y u y' x hu,
    fun s hr => opCost_value p τ hs.valid hs.stable cl cs T mcu u s hr, ?_⟩
  have e : (∑ k : Fin M.nTraces, traceInfidelity cl cs T mcu false p M.hNoise τ u (traceOf _ _ M.samples k)) / M.nTraces -
      (1 - entFid cl cs T (p.final τ u) mcu) = (∑ k : Fin M.nTraces, (entFid cl cs T (noisyFinal p M.hNoise τ u 0) mcu -
        entFid cl cs T (noisyFinal p M.hNoise τ u (traceOf _ _ M.samples k)) mcu)) / M.nTraces := by
    rw [clean_final p τ hs.method hs.expm M.hNoise]
    simp only [traceInfidelity, Finset.sum_sub_distrib, Finset.sum_const, Finset.card_univ, Fintype.card_fin, nsmul_eq_mul]
    field_simp
    simp
    ring
  rw [e, abs_div, abs_of_pos hK', ← mul_div_assoc]
  refine div_le_div_of_nonneg_right ?_ hK'.le
  rw [Finset.mul_sum]
  refine (Finset.abs_sum_le_sum_abs _ _).trans (Finset.sum_le_sum fun k _ => ?_)
  rw [abs_sub_comm]
  refine (entFid_lip cl cs hs.distinct mcu hs.plain hT
    (norm_unitary_le (noisyFinal_unitary p _ τ hs.valid hs.drift hs.ctrl hs.noise hs.init _ _))
    (norm_unitary_le (noisyFinal_unitary p _ τ hs.valid hs.drift hs.ctrl hs.noise hs.init _ _))).trans ?_
  exact mul_le_mul_of_nonneg_left (noisyFinal_lip_noise p _ hs.drift hs.ctrl hs.noise hs.init τ u _) (by norm_num)

/-- **C117** (second order) The infidelity between the evolutions with and without noise is at most the mean square of the accumulated
noise. -/
theorem c117_second_order (p : SPar n n) (τ : List ℝ) (cl : Closest) (T : Matrix n n ℂ)
    (mcu : Bool) (M : MC n n) (hs : NoisySystem p τ M.hNoise none T mcu true) (hb : M.base = p.cfg) (hp : M.ProcsOk)
    (ha : M.noiseAmp = none) (h0 : M.samples.d0 = M.hNoise.length) (h1 : M.samples.d1 = M.nTraces)
    (h2 : M.samples.d2 = (p.xTimes τ).length) (y u y' x : Pulse) (hu : ampsOf p.cfg τ y = some u) :
    ∃ c, mcCosts cl none T mcu true M (p.xTimes τ) y' x u = .ok c ∧ 0 ≤ c ∧
      c ≤ (∑ k : Fin M.nTraces, (∑ t, |(p.xTimes τ).get t| * ∑ j : Fin M.hNoise.length, |M.samples.val j k t| * ‖M.hNoise.get j‖) ^ 2) / M.nTraces := by
  have hn : Nonempty n := hs.states
  have hu' := fun z => noisyFinal_unitary p M.hNoise τ hs.valid hs.drift hs.ctrl hs.noise hs.init u z
  refine ⟨_, mcCosts_value p τ hs.valid hs.stable hs.method hs.expm hs.times M hb hp ha h0 h1 h2 cl none T mcu true y u y' x hu, ?_, ?_⟩
  · exact div_nonneg (Finset.sum_nonneg fun k _ => (traceInfidelity_range cl none hs.states hs.distinct T mcu true hs.plain hs.target p _ τ
      hs.valid hs.drift hs.ctrl hs.noise hs.init u _).1) (by positivity)
  · refine div_le_div_of_nonneg_right (Finset.sum_le_sum fun k _ => ?_) (by positivity)
    have := entFid_quadratic cl mcu (hu' 0) (hu' (traceOf _ _ M.samples k))
    have h3 := noisyFinal_lip_noise p _ hs.drift hs.ctrl hs.noise hs.init τ u (traceOf _ _ M.samples k)
    rw [norm_sub_rev] at h3
    refine le_trans ?_ (this.trans (pow_le_pow_left₀ (norm_nonneg _) h3 2))
    unfold traceInfidelity
    simp [truncTo]

/-! ## Examples -/

namespace Ex117

/-- Two traces of noise on the drift of a qubit. -/
noncomputable def mc (L : Lapack (Fin 2)) : MC (Fin 2) (Fin 2) :=
  ⟨(qubitPar L .none true).cfg, [!![1, 0; 0, -1]], .int 1, none, 2, ⟨1, 2, 3, fun _ k t => 10 * k + t⟩⟩

theorem system {L : Lapack (Fin 2)} (hE : L.ExpmOk) (hN : List (Matrix (Fin 2) (Fin 2) ℂ)) (hn : ∀ H ∈ hN, H.IsHermitian) :
    NoisySystem (qubitPar L .none true) [1, 2, 3] hN none 1 false false :=
  { qubit_system hE with noise := hn, target := Or.inr (one_mem _) }

end Ex117

/-- `c117_amplitudes` applies: every pulse for a qubit with two controls. -/
example (cl : Closest) : ∃ (L : Lapack (Fin 2)) (I : (Fin 3 → Fin 2 → ℝ) → ℝ),
    (∀ U, (costOn (opCosts cl none 1 false) (qubitPar L .none true).cfg
      (fresh (qubitPar L .none true).cfg [1, 2, 3] (rowsOf U))).1 = .ok (I U)) ∧
    ∀ U V, |I U - I V| ≤ 2 * ∑ t : Fin 3, |([1, 2, 3] : List ℝ).get t| *
      ∑ c : Fin 2, |U t c - V t c| * ‖(qubitPar L .none true).ctrl.get c‖ := by
  obtain ⟨L, -, -, hE, hF⟩ := Solver.lapack_exists (Fin 2)
  have ha := fun V : Fin 3 → Fin 2 → ℝ => qubitPar_amps L .none true _ (rowsOf_shape V).1 (rowsOf_shape V).2
  obtain ⟨I, g, h1, -, h2, -⟩ := c117_amplitudes (qubitPar L .none true) [1, 2, 3] cl none 1 false (Ex117.system hE [] (by simp)) rfl hF
    (fun V => ⟨rowsOf V, ha V⟩)
  exact ⟨L, I, fun U => h1 U _ (ready_fresh _ _ _ _ (ha U)), h2⟩

/-- `c117_perfect` applies: the target is the evolution of some pulse. -/
example (cl : Closest) (U : Fin 3 → Fin 2 → ℝ) : ∃ (L : Lapack (Fin 2)) (T : Matrix (Fin 2) (Fin 2) ℂ),
    (gradOn (fun tr => opGrad cl none T false tr.fwd tr.dP tr.rev) (qubitPar L .none true).cfg
      (fresh (qubitPar L .none true).cfg [1, 2, 3] (rowsOf U))).1 = .ok (rowsOf fun (_ : Fin 3) (_ : Fin 2) => 0) := by
  obtain ⟨L, -, -, hE, hF⟩ := Solver.lapack_exists (Fin 2)
  have ha := fun V : Fin 3 → Fin 2 → ℝ => qubitPar_amps L .none true _ (rowsOf_shape V).1 (rowsOf_shape V).2
  have hs := Ex117.system hE [] (by simp)
  have hT : (qubitPar L .none true).final [1, 2, 3] (rowsOf U) ∈ Matrix.unitaryGroup (Fin 2) ℂ := by
    rw [clean_final _ _ hs.method hs.expm []]
    exact noisyFinal_unitary _ [] _ hs.valid hs.drift hs.ctrl hs.noise hs.init _ 0
  have hr := ready_fresh (qubitPar L .none true) [1, 2, 3] _ _ (ha U)
  refine ⟨L, _, (c117_perfect (qubitPar L .none true) [1, 2, 3] cl _ false { hs with target := Or.inr hT } rfl hF
    (fun V => ⟨rowsOf V, ha V⟩) U _ hr ?_).1⟩
  refine (opCost_value _ _ hs.valid hs.stable cl none _ false _ _ hr).trans ?_
  rw [(c43_one_iff cl false _ _ hT hT).mpr ⟨1, by simp, by rw [one_smul]⟩, sub_self]

/-- `c117_noise` and `c117_second_order` apply. -/
example (cl : Closest) : ∃ (L : Lapack (Fin 2)) (c d : ℝ),
    mcCosts cl none 1 false false (Ex117.mc L) [1, 2, 3] [] [] [[1, 2], [3, 4], [5, 6]] = .ok c ∧
    mcCosts cl none 1 false true (Ex117.mc L) [1, 2, 3] [] [] [[1, 2], [3, 4], [5, 6]] = .ok d := by
  obtain ⟨L, -, -, hE, -⟩ := Solver.lapack_exists (Fin 2)
  have hu := qubitPar_amps L .none true [[1, 2], [3, 4], [5, 6]] rfl (by simp)
  obtain ⟨c, _, h1, -⟩ := c117_noise (qubitPar L .none true) [1, 2, 3] cl none 1 false (Ex117.mc L)
    (Ex117.system hE _ (qubit_system hE).noise) rfl (.inl rfl) rfl rfl rfl rfl (by simp [Ex117.mc]) _ _ [] [] hu
  obtain ⟨d, h2, -⟩ := c117_second_order (qubitPar L .none true) [1, 2, 3] cl 1 false (Ex117.mc L)
    (qubit_system hE) rfl (.inl rfl) rfl rfl rfl rfl _ _ [] [] hu
  exact ⟨L, c, d, h1, h2⟩

end
end Verif.Cost
