import Verif.Cost.StochGrad
import Verif.Cost.LeakTotal
import Mathlib.Analysis.Calculus.MeanValue

/-!
# C116: accuracy of the approximation 'grape'

With `frechet_deriv_approx_method='grape'` the derivative of a propagator `exp(-i τ H)` by the amplitude of a control `H_c` is
replaced by `-i τ H_c exp(-i τ H)` (solver_algorithms.py:965-976 and 1422-1445).  This is the first term of an expansion in
commutators of `H` with `H_c`.
-/

namespace Verif.Cost
open Verif Verif.Operator Verif.Solver Matrix MeasureTheory

section
open scoped Matrix.Norms.L2Operator
variable {n : Type} [Fintype n] [DecidableEq n]

/-- Conjugation with a one-parameter group of unitaries moves a matrix at most with the velocity of the commutator. -/
theorem conj_move {A : Matrix n n ℂ} (hA : Aᴴ = -A) (E : Matrix n n ℂ) (r : ℝ) (hr : 0 ≤ r) :
    ‖NormedSpace.exp (r • A) * E - E * NormedSpace.exp (r • A)‖ ≤ ‖A * E - E * A‖ * r := by
  let _ : NormedAlgebra ℝ (Matrix n n ℂ) := NormedAlgebra.restrictScalars ℝ ℂ _
  have hu : ∀ s : ℝ, NormedSpace.exp (s • A) ∈ unitary (Matrix n n ℂ) := by
    intro s
    refine exp_skew_unitary ?_
    rw [Matrix.conjTranspose_smul, hA]
    simp
  have hinv : ∀ s : ℝ, NormedSpace.exp ((-s) • A) * NormedSpace.exp (s • A) = 1 := by
    intro s
    rw [← Matrix.exp_add_of_commute _ _ ((Commute.refl A).smul_left _ |>.smul_right _), ← add_smul]
    simp
  set f : ℝ → Matrix n n ℂ := fun s => NormedSpace.exp (s • A) * E * NormedSpace.exp ((-s) • A) with hf
  have hd : ∀ s : ℝ, HasDerivAt f (NormedSpace.exp (s • A) * (A * E - E * A) * NormedSpace.exp ((-s) • A)) s := by
    intro s
    have h1 : HasDerivAt (fun s : ℝ => NormedSpace.exp (s • A)) (NormedSpace.exp (s • A) * A) s := hasDerivAt_exp_smul_const A s
    have h2 : HasDerivAt (fun s : ℝ => NormedSpace.exp ((-s) • A)) (-(A * NormedSpace.exp ((-s) • A))) s := by
      have h3 := (hasDerivAt_exp_smul_const' A (-s : ℝ)).scomp s (hasDerivAt_neg s)
      simpa [Function.comp_def] using h3
    have h3 := (h1.mul_const E).fun_mul h2
    refine h3.congr_deriv ?_
    noncomm_ring
  have hb := Convex.norm_image_sub_le_of_norm_hasDerivWithin_le (f := f) (C := ‖A * E - E * A‖) (s := Set.univ)
    (fun s _ => (hd s).hasDerivWithinAt) (fun s _ => by
      rw [CStarRing.norm_mul_mem_unitary _ (hu _), CStarRing.norm_mem_unitary_mul _ (hu _)]) convex_univ
    (Set.mem_univ 0) (Set.mem_univ r)
  have e : NormedSpace.exp (r • A) * E - E * NormedSpace.exp (r • A) = (f r - f 0) * NormedSpace.exp (r • A) := by
    rw [hf]
    simp only [zero_smul, neg_zero, NormedSpace.exp_zero, one_mul, mul_one, sub_mul, Matrix.mul_assoc, hinv r]
  rw [e, CStarRing.norm_mul_mem_unitary _ (hu _)]
  simpa [Real.norm_of_nonneg hr] using hb

/-- The derivative of the exponential of an anti-Hermitian matrix differs from its first term by at most half the commutator. -/
theorem grape_error {A : Matrix n n ℂ} (hA : Aᴴ = -A) (E D : Matrix n n ℂ)
    (hD : MatDeriv (fun x : ℝ => NormedSpace.exp (A + (x : ℂ) • E)) D 0) :
    ‖E * NormedSpace.exp A - D‖ ≤ ‖A * E - E * A‖ / 2 := by
  let _ : NormedAlgebra ℝ (Matrix n n ℂ) := NormedAlgebra.restrictScalars ℝ ℂ _
  let _ : NormedAlgebra ℚ (Matrix n n ℂ) := NormedAlgebra.restrictScalars ℚ ℝ _
  have hexp : Continuous (NormedSpace.exp : Matrix n n ℂ → Matrix n n ℂ) := NormedSpace.exp_continuous
  have hu : ∀ s : ℝ, NormedSpace.exp (s • A) ∈ unitary (Matrix n n ℂ) := by
    intro s
    refine exp_skew_unitary ?_
    rw [Matrix.conjTranspose_smul, hA]
    simp
  have hint := hasDerivAt_exp_line A E
  have hDI : D = ∫ s in (0 : ℝ)..1, NormedSpace.exp ((1 - s) • A) * E * NormedSpace.exp (s • A) := by
    refine MatDeriv.unique hD fun i j => ?_
    have hc : Continuous fun M : Matrix n n ℂ => M i j := by fun_prop
    let ev : Matrix n n ℂ →L[ℝ] ℂ := ⟨Matrix.entryLinearMap ℝ ℂ i j, hc⟩
    exact (ev.hasFDerivAt.comp_hasDerivAt (0 : ℝ) hint)
  have e1 : (∫ _s in (0 : ℝ)..1, E * NormedSpace.exp A) = E * NormedSpace.exp A := by simp
  rw [hDI, ← e1, ← intervalIntegral.integral_sub (by simp) (Continuous.intervalIntegrable (by fun_prop) 0 1)]
  have hI : (∫ s in (0 : ℝ)..1, ‖A * E - E * A‖ * (1 - s)) = ‖A * E - E * A‖ / 2 := by
    rw [intervalIntegral.integral_const_mul, intervalIntegral.integral_sub (by simp) (by simp)]
    simp
    ring
  rw [← hI]
  refine intervalIntegral.norm_integral_le_of_norm_le (by norm_num) (Filter.Eventually.of_forall fun s hs => ?_)
    (Continuous.intervalIntegrable (by fun_prop) 0 1)
  have hs' : 0 ≤ 1 - s := by linarith [hs.2]
  have e2 : NormedSpace.exp A = NormedSpace.exp ((1 - s) • A) * NormedSpace.exp (s • A) := by
    rw [← Matrix.exp_add_of_commute _ _ ((Commute.refl A).smul_left _ |>.smul_right _), ← add_smul]
    simp
  rw [e2, ← Matrix.mul_assoc, ← Matrix.sub_mul, CStarRing.norm_mul_mem_unitary _ (hu _), norm_sub_rev]
  exact conj_move hA E (1 - s) hs'

/-- The approximation for one step of the evolution. -/
theorem grape_step (σ : ℝ) {H : Matrix n n ℂ} (hH : H.IsHermitian) (C X D : Matrix n n ℂ)
    (hX : X = ((σ : ℂ) * (-Complex.I)) • (C * NormedSpace.exp ((σ : ℂ) • (-Complex.I) • H)))
    (hD : MatDeriv (fun x : ℝ => NormedSpace.exp ((σ : ℂ) • (-Complex.I) • H + (x : ℂ) • (σ : ℂ) • (-Complex.I) • C)) D 0) :
    2 * ‖X - D‖ ≤ σ ^ 2 * ‖H * C - C * H‖ := by
  have hA : ((σ : ℂ) • (-Complex.I) • H)ᴴ = -((σ : ℂ) • (-Complex.I) • H) := by
    rw [Matrix.conjTranspose_smul, skew_of_hermitian hH]; simp
  have h := grape_error hA _ D hD
  have e1 : ((σ : ℂ) • (-Complex.I) • C) * NormedSpace.exp ((σ : ℂ) • (-Complex.I) • H) = X := by
    rw [hX, Matrix.smul_mul, Matrix.smul_mul, smul_smul]
  have e2 : ((σ : ℂ) • (-Complex.I) • H) * ((σ : ℂ) • (-Complex.I) • C) -
      ((σ : ℂ) • (-Complex.I) • C) * ((σ : ℂ) • (-Complex.I) • H) = (-((σ ^ 2 : ℝ) : ℂ)) • (H * C - C * H) := by
    simp only [Matrix.smul_mul, Matrix.mul_smul, smul_smul, smul_sub]
    have : (σ : ℂ) * -Complex.I * (σ * -Complex.I) = -((σ ^ 2 : ℝ) : ℂ) := by
      push_cast
      ring_nf
      rw [Complex.I_sq]
      ring
    rw [this]
  rw [e1, e2, norm_smul, norm_neg, Complex.norm_real, Real.norm_of_nonneg (sq_nonneg σ)] at h
  linarith

/-! ## Traces of truncated matrices -/

theorem norm_one_le {k : Type} [Fintype k] [DecidableEq k] : ‖(1 : Matrix k k ℂ)‖ ≤ 1 := by
  cases isEmpty_or_nonempty k with
  | inl h => rw [Subsingleton.elim (1 : Matrix k k ℂ) 0, norm_zero]; exact zero_le_one
  | inr h => exact le_of_eq CStarRing.norm_one

theorem norm_submatrix_le {k : Type} [Fintype k] [DecidableEq k] (f : k → n) (hf : Function.Injective f) (X : Matrix n n ℂ) :
    ‖X.submatrix f f‖ ≤ ‖X‖ := by
  set S : Matrix n k ℂ := (1 : Matrix n n ℂ).submatrix id f with hS
  have hSS : Sᴴ * S = 1 := by
    ext i j
    simp [hS, Matrix.mul_apply, Matrix.one_apply, hf.eq_iff, eq_comm]
  have hn : ‖S‖ ≤ 1 := by
    have h1 := Matrix.l2_opNorm_conjTranspose_mul_self S
    rw [hSS] at h1
    have h2 := norm_one_le (k := k)
    nlinarith [norm_nonneg S]
  have hX : X.submatrix f f = Sᴴ * X * S := by
    ext i j
    simp [hS, Matrix.mul_apply, Matrix.one_apply]
  rw [hX]
  calc ‖Sᴴ * X * S‖ ≤ ‖Sᴴ‖ * ‖X‖ * ‖S‖ := (Matrix.l2_opNorm_mul _ _).trans
        (mul_le_mul_of_nonneg_right (Matrix.l2_opNorm_mul _ _) (norm_nonneg _))
    _ ≤ 1 * ‖X‖ * 1 := by
        rw [Matrix.l2_opNorm_conjTranspose]
        gcongr
    _ = ‖X‖ := by ring

theorem trace_norm_le {k : Type} [Fintype k] [DecidableEq k] (M : Matrix k k ℂ) : ‖M.trace‖ ≤ Fintype.card k * ‖M‖ := by
  unfold Matrix.trace
  refine (norm_sum_le _ _).trans ((Finset.sum_le_card_nsmul _ _ ‖M‖ fun i _ => entry_le_norm M i i).trans ?_)
  simp

end

section
variable {n : Type} [Fintype n] [DecidableEq n]

/-! ## What a gradient reads from a Monte Carlo solver with 'grape' -/

/-- The approximation of the derivative of the propagator of step `t` by the amplitude of control `c`. -/
noncomputable def grapeStep (p : SPar n n) (τ : List ℝ) (u : Pulse) (t c : Nat) : Matrix n n ℂ :=
  ((((p.xTimes τ).getD t 0 : ℝ) : ℂ) * (-Complex.I)) • (p.ctrl.getD c 0 * p.step τ u t)

theorem mc_reads_grape (p : SPar n n) (τ : List ℝ) (hv : p.Valid τ) (happ : p.approx = .grape) (hcd : p.calcDeriv = false)
    (hne : p.xTimes τ ≠ []) (M : MC n n) (hM : Sampled M p τ) (y u y' x : Pulse) (hu : ampsOf p.cfg τ y = some u) :
    ∃ (clean : Trace n n) (noise : List (Trace n n)), mcClean M (p.xTimes τ) u = .ok clean ∧
      specFwd M.base (p.xTimes τ) u = .ok clean.fwd ∧ IsForward p.init (p.steps τ u) clean.fwd ∧
      IsReversed (p.steps τ u) clean.rev ∧ Rect clean.dP (p.xTimes τ).length p.ctrl.length ∧
      mcTraces M (p.xTimes τ) y' x u = .ok noise ∧ fwdNoise M (p.xTimes τ) y' x u = .ok (noise.map Trace.fwd) ∧
      noise.length = M.nTraces ∧
      ∀ k (hk : k < noise.length), noise[k].Of p.init ((p.noisy M.hNoise M.samples k).steps τ u) p.ctrl.length ∧
        ∀ t c, t < (p.xTimes τ).length → c < p.ctrl.length →
          noise[k].derivAt t c = some (grapeStep (p.noisy M.hNoise M.samples k) τ u t c) := by
  have hst : Stable p.cfg := Or.inr (Or.inr ⟨by show p.approx ≠ .none; rw [happ]; simp, hcd⟩)
  -- without noise
  have hr := ready_fresh p τ y u hu
  obtain ⟨f₀, s1, e1, hf₀, -⟩ := hr.fwd hv hst
  obtain ⟨r₀, s2, e2, hr₀, -⟩ := hr.rev hv hst hne
  have k1 := (readFwd_ok hst hr.inv).1
  have k2 := (readRev_ok hst hr.inv).1
  rw [hr.times] at k1 k2
  have hgl : (p.xTimes τ).length ≤ (p.cfg.gens u).length := by
    show _ ≤ (schroedGens p.drift p.ctrl u).length
    rw [schroedGens_length, hv.2.1]
  have hd₀ : ∃ d₀ dP, specDeriv M.base (p.xTimes τ) u = .ok d₀ ∧ plainDerivs d₀ = .ok dP ∧
      Rect dP (p.xTimes τ).length p.ctrl.length := by
    rw [hM.base]
    unfold specDeriv
    rw [show p.cfg.approx = .grape from happ]
    simp only
    rw [cellsP_ok p.cfg hv.2.2 _ u hgl, grapeCells_ok p τ hv u]
    refine ⟨_, (List.range (p.xTimes τ).length).map fun t => p.ctrl.map fun H =>
        (((p.xTimes τ).getD t 0 : ℝ) : ℂ) • ((-Complex.I) • H) *
          expProp p.L p.method p.skew ((p.cfg.gens u).getD t 0) ((p.xTimes τ).getD t 0), rfl, ?_, ?_⟩
    · unfold plainDerivs
      simp only [List.map_map]
      refine allOk_map _ _ _ fun t ht => ?_
      simp only [Function.comp, List.map_map]
      exact allOk_map _ _ _ fun H _ => rfl
    · refine ⟨by simp, fun row hrow => ?_⟩
      obtain ⟨t, -, rfl⟩ := List.mem_map.mp hrow
      simp
  obtain ⟨d₀, dP₀, hd1, hd2, hd3⟩ := hd₀
  -- with noise
  have hk := fun k => ready_fresh (p.noisy M.hNoise M.samples k) τ y u hu
  have hvk := fun k => SPar.noisy_valid hv M.hNoise M.samples k
  have hsk := fun k => SPar.noisy_stable hst M.hNoise M.samples k
  have hkf := fun k => (hk k).fwd (hvk k) (hsk k)
  have hkr := fun k => (hk k).rev (hvk k) (hsk k) hne
  choose F _ F1 F2 _ using hkf
  choose R _ R1 R2 _ using hkr
  have hkp : ∀ k, (readProps (p.noisy M.hNoise M.samples k).cfg (fresh (p.noisy M.hNoise M.samples k).cfg τ y)).1 =
      .ok (((p.noisy M.hNoise M.samples k).steps τ u).map some) := by
    intro k
    rw [(readProps_ok (hsk k) (hk k).inv).1, specProps, (hk k).cells (hvk k)]
    rfl
  obtain ⟨ps, f, r, a1, a2, a3, l1, l2, l3, a4⟩ := c94_traces p τ hv y u y' x hu hne M hM.base (Or.inl hM.procs) hM.amp
    hM.ops hM.traces hM.times
  have hps : ps = ((List.range M.nTraces).map fun k => (p.noisy M.hNoise M.samples k).steps τ u).map fun l => l.map some := by
    refine List.ext_getElem (by simp [l1]) fun k h1 h2 => ?_
    obtain ⟨_, _, _, b1, -, -, b2, -, -⟩ := a4 k (by simpa using h2)
    rw [hkp k] at b2
    rw [List.getElem?_eq_getElem h1] at b1
    simp only [Except.ok.injEq] at b2
    simp [Option.some.inj b1, ← b2]
  have hf : f = (List.range M.nTraces).map F := by
    refine List.ext_getElem (by simp [l2]) fun k h1 h2 => ?_
    obtain ⟨_, _, _, -, b1, -, -, b2, -⟩ := a4 k (by simpa using h2)
    rw [F1 k] at b2
    rw [List.getElem?_eq_getElem h1] at b1
    simp only [Except.ok.injEq] at b2
    simp [Option.some.inj b1, b2]
  have hrr : r = (List.range M.nTraces).map R := by
    refine List.ext_getElem (by simp [l3]) fun k h1 h2 => ?_
    obtain ⟨_, _, _, -, -, b1, -, -, b2⟩ := a4 k (by simpa using h2)
    rw [R1 k] at b2
    rw [List.getElem?_eq_getElem h1] at b1
    simp only [Except.ok.injEq] at b2
    simp [Option.some.inj b1, b2]
  have hdn := derivsNoise_grape p τ hv happ hcd y' u x M hM.base _ (hps ▸ a1) (by
    intro l hl
    obtain ⟨k, -, rfl⟩ := List.mem_map.mp hl
    rw [steps_length]
    rfl)
  set dP : Nat → List (List (Matrix n n ℂ)) := fun k => (List.range p.ctrl.length).map fun c =>
    (List.range (p.xTimes τ).length).map fun t => grapeStep (p.noisy M.hNoise M.samples k) τ u t c with hdP
  refine ⟨⟨f₀, dP₀, r₀⟩, (List.range M.nTraces).map fun k => ⟨F k, dP k, R k⟩, ?_, by rw [hM.base, ← k1, e1], hf₀, hr₀, hd3, ?_, ?_,
    by simp, fun k hk => ?_⟩
  · unfold mcClean
    rw [hd1]
    rw [hM.base, ← k1, e1, ← k2, e2]
    simp only [bind, Except.bind, hd2, pure, Except.pure]
  · unfold mcTraces
    rw [a2, hdn, a3]
    have : allOk ((((List.range M.nTraces).map fun k => (p.noisy M.hNoise M.samples k).steps τ u).map fun l =>
        (List.range p.ctrl.length).map fun c => (List.range (p.xTimes τ).length).map fun t =>
          some (some (((((p.xTimes τ).getD t 0 : ℝ) : ℂ) * (-Complex.I)) • (p.ctrl.getD c 0 * l.getD t 0)))).map plainDerivs) =
        .ok ((List.range M.nTraces).map dP) := by
      rw [List.map_map, List.map_map]
      refine allOk_map _ _ _ fun k _ => ?_
      simp only [Function.comp, plainDerivs, List.map_map]
      refine allOk_map _ _ _ fun c _ => ?_
      simp only [Function.comp, List.map_map]
      refine allOk_map _ _ _ fun t ht => ?_
      have ht' := List.mem_range.mp ht
      have hs : ((p.noisy M.hNoise M.samples k).steps τ u).getD t 0 = (p.noisy M.hNoise M.samples k).step τ u t := by
        rw [List.getD_eq_getElem _ _ (by rw [steps_length]; exact ht')]
        simp only [SPar.steps, List.getElem_map, List.getElem_range]
      simp only [Function.comp, hs]
      rfl
    simp only [bind, Except.bind, this, pure, Except.pure]
    rw [hf, hrr]
    congr 1
    refine List.ext_getElem (by simp) fun k h1 h2 => ?_
    simp
  · rw [a2, hf, List.map_map]
    rfl
  · simp only [List.getElem_map, List.getElem_range]
    refine ⟨⟨F2 k, R2 k, by simp [hdP], fun row hrow => ?_⟩, fun t c ht hc => ?_⟩
    · obtain ⟨c, -, rfl⟩ := List.mem_map.mp hrow
      rw [steps_length]
      simp
      rfl
    · simp [Trace.derivAt, hdP, List.getElem?_range hc, List.getElem?_range ht]

/-- The cost for the propagators of all traces. -/
theorem mcCosts_of (p : SPar n n) (τ : List ℝ) (M : MC n n) (u y x : Pulse) (cl : Closest) (cs : Option (List n))
    (T : Matrix (CompIdx cs) (CompIdx cs) ℂ) (mcu nse : Bool) (clean : Trace n n) (noise : List (Trace n n))
    (h1 : specFwd M.base (p.xTimes τ) u = .ok clean.fwd) (h2 : IsForward p.init (p.steps τ u) clean.fwd)
    (h3 : fwdNoise M (p.xTimes τ) y x u = .ok (noise.map Trace.fwd)) (h4 : noise.length = M.nTraces)
    (h5 : ∀ k (hk : k < noise.length), IsForward p.init ((p.noisy M.hNoise M.samples k).steps τ u) noise[k].fwd) :
    mcCosts cl cs T mcu nse M (p.xTimes τ) y x u = .ok (noiseInfidelity cl cs T mcu nse (p.final τ u) M.nTraces fun k =>
      (p.noisy M.hNoise M.samples k).final τ u) := by
  have hlast : clean.fwd.getLast? = some (p.final τ u) := final_last h2
  unfold mcCosts
  rw [h1, h3]
  simp only [bind, Except.bind]
  unfold noiseCosts
  have : effTarget cl cs T mcu nse clean.fwd = .ok (if nse then truncTo cl cs mcu (p.final τ u) else T) := by
    unfold effTarget
    cases nse
    · rfl
    · simp only [if_true, last_ok hlast]; rfl
  rw [this]
  simp only [bind, Except.bind]
  have hmap : noise.map Trace.fwd = (List.finRange M.nTraces).map fun k : Fin M.nTraces => (noise[(k : Nat)]'(by rw [h4]; exact k.2)).fwd := by
    refine List.ext_getElem (by simp [h4]) fun i h1 h2 => ?_
    simp
  rw [hmap, List.map_map, allOk_map (List.finRange M.nTraces) _ (fun k : Fin M.nTraces =>
    1 - entFid cl cs (if nse then truncTo cl cs mcu (p.final τ u) else T) ((p.noisy M.hNoise M.samples k).final τ u) mcu)]
  · simp only [pure, Except.pure, mean, noiseInfidelity, List.length_map, List.length_finRange]
    rw [← List.sum_ofFn, List.ofFn_eq_map]
  · intro k _
    have hl : (noise[(k : Nat)]'(by rw [h4]; exact k.2)).fwd.getLast? = some ((p.noisy M.hNoise M.samples k).final τ u) :=
      final_last (h5 k (by rw [h4]; exact k.2))
    simp only [Function.comp, last_ok hl]
    rfl

/-- The entries of the gradient with a fixed target, whatever the derivatives of the propagators are. -/
theorem noiseGrad_entries (cl : Closest) (cs : Option (List n)) (hcs : cs ≠ some []) (T : Matrix (CompIdx cs) (CompIdx cs) ℂ)
    (mcu : Bool) (init : Matrix n n ℂ) (nt nc : Nat) (hnc : 0 < nc) (clean : Trace n n) (noise : List (Trace n n))
    (psN : Nat → List (Matrix n n ℂ)) (hN : ∀ k (hk : k < noise.length), noise[k].Of init (psN k) nc ∧ (psN k).length = nt)
    (E : Nat → Matrix n n ℂ) (hE : ∀ k (hk : k < noise.length), noise[k].fwd.getLast? = some (E k)) :
    ∃ g, noiseGrad cl cs T mcu false nt nc clean noise = .ok g ∧ Rect g nt nc ∧
      ∀ (t c : Nat) (R D F : Nat → Matrix n n ℂ), t < nt → c < nc →
        (∀ k (hk : k < noise.length), noise[k].rev.reverse[t + 1]? = some (R k) ∧ noise[k].derivAt t c = some (D k) ∧
          noise[k].fwd[t]? = some (F k)) →
        entry g t c = some ((∑ k : Fin noise.length, -(2 / dim cs / dim cs * (star (truncTo cl cs false (E k) * Tᴴ).trace *
          (truncTo cl cs false (R k * D k * F k) * Tᴴ).trace).re)) / noise.length) := by
  have htab : ∀ k (hk : k < noise.length), ∃ a, derivEntFid cl cs T noise[k].fwd noise[k].dP noise[k].rev false = .ok a ∧
      ∀ t c R D F, noise[k].rev.reverse[t + 1]? = some R → noise[k].derivAt t c = some D → noise[k].fwd[t]? = some F →
        entry a t c = some (2 / dim cs / dim cs * (star (truncTo cl cs false (E k) * Tᴴ).trace *
          (truncTo cl cs false (R * D * F) * Tᴴ).trace).re) := by
    intro k hk
    obtain ⟨g, h1, -, h3⟩ := gradTable_entry (hN k hk).1 hnc fun X => 2 / dim cs / dim cs *
      (star (truncTo cl cs false (E k) * Tᴴ).trace * (truncTo cl cs false X * Tᴴ).trace).re
    refine ⟨g, ?_, h3⟩
    unfold derivEntFid
    rw [if_neg hcs, last_ok (hE k hk)]
    exact h1
  choose a ha1 ha2 using htab
  have hall : allOk (noise.map fun tr => derivEntFid cl cs T tr.fwd tr.dP tr.rev false) =
      .ok ((List.finRange noise.length).map fun k : Fin noise.length => a k k.2) := by
    have hmap : noise = (List.finRange noise.length).map fun k : Fin noise.length => noise[(k : Nat)] := by
      refine List.ext_getElem (by simp) fun i h1 h2 => ?_
      simp
    have : (noise.map fun tr => derivEntFid cl cs T tr.fwd tr.dP tr.rev false) =
        (List.finRange noise.length).map fun k : Fin noise.length =>
          derivEntFid cl cs T noise[(k : Nat)].fwd noise[(k : Nat)].dP noise[(k : Nat)].rev false := by
      conv_lhs => rw [hmap]
      rw [List.map_map]
      rfl
    rw [this]
    exact allOk_map _ _ _ fun k _ => ha1 k k.2
  refine ⟨meanTable nt nc (((List.finRange noise.length).map fun k : Fin noise.length => a k k.2).map negTable), ?_, rect_meanTable _ _ _,
    fun t c R D F ht hc h => ?_⟩
  · unfold noiseGrad effTarget
    simp only [Bool.false_eq_true, if_false, bind_pure, pure_bind]
    rw [hall]
    rfl
  · rw [entry_meanTable _ _ _ ht hc]
    unfold mean
    simp only [List.map_map, List.length_map, List.length_finRange]
    rw [← List.sum_ofFn, List.ofFn_eq_map]
    congr 3
    refine List.map_congr_left fun k _ => ?_
    obtain ⟨h1, h2, h3⟩ := h k k.2
    have := ha2 k k.2 t c _ _ _ h1 h2 h3
    have hn : entry (negTable (a k k.2)) t c = some (-(2 / dim cs / dim cs * (star (truncTo cl cs false (E k) * Tᴴ).trace *
          (truncTo cl cs false (R k * D k * F k) * Tᴴ).trace).re)) := entry_neg this
    exact entry_getD hn

end

section
open scoped Matrix.Norms.L2Operator
variable {n : Type} [Fintype n] [DecidableEq n]

theorem sel_injective {cs : Option (List n)} (hcs : ∀ l, cs = some l → l.Nodup) : Function.Injective (sel cs) := by
  cases cs with
  | none => exact Function.injective_id
  | some l => exact List.nodup_iff_injective_get.mp (hcs l rfl)

theorem trace_trunc_le (cl : Closest) (cs : Option (List n)) (hcs : ∀ l, cs = some l → l.Nodup)
    {T : Matrix (CompIdx cs) (CompIdx cs) ℂ} (hT : T ∈ Matrix.unitaryGroup (CompIdx cs) ℂ) (X : Matrix n n ℂ) :
    ‖(truncTo cl cs false X * Tᴴ).trace‖ ≤ dim cs * ‖X‖ := by
  rw [truncTo_eq cl cs false (Or.inl rfl)]
  refine (trace_norm_le _).trans ?_
  refine mul_le_mul_of_nonneg_left ?_ (dim_pos cs)
  have hT' : Tᴴ ∈ unitary (Matrix (CompIdx cs) (CompIdx cs) ℂ) := by
    rw [← Matrix.star_eq_conjTranspose]
    exact Unitary.star_mem hT
  rw [CStarRing.norm_mul_mem_unitary _ hT']
  exact norm_submatrix_le _ (sel_injective hcs) X

/-- Two derivatives of the propagator of a step that are close lead to entries of the gradient that are close. -/
theorem entry_close (cl : Closest) (cs : Option (List n)) (hcs : ∀ l, cs = some l → l.Nodup)
    {T : Matrix (CompIdx cs) (CompIdx cs) ℂ} (hT : T ∈ Matrix.unitaryGroup (CompIdx cs) ℂ) {E R F D D' : Matrix n n ℂ}
    (hE : ‖E‖ ≤ 1) (hR : ‖R‖ ≤ 1) (hF : ‖F‖ ≤ 1) :
    |2 / dim cs / dim cs * (star (truncTo cl cs false E * Tᴴ).trace * (truncTo cl cs false (R * D * F) * Tᴴ).trace).re -
      2 / dim cs / dim cs * (star (truncTo cl cs false E * Tᴴ).trace * (truncTo cl cs false (R * D' * F) * Tᴴ).trace).re| ≤
      2 * ‖D - D'‖ := by
  have e : truncTo cl cs false (R * D * F) * Tᴴ - truncTo cl cs false (R * D' * F) * Tᴴ =
      truncTo cl cs false (R * (D - D') * F) * Tᴴ := by
    simp only [truncTo_eq cl cs false (Or.inl rfl)]
    rw [Matrix.mul_sub R, Matrix.sub_mul (R * D)]
    exact (Matrix.sub_mul ((R * D * F).submatrix (sel cs) (sel cs)) _ _).symm
  rw [← mul_sub, ← Complex.sub_re, ← mul_sub, ← Matrix.trace_sub, e, abs_mul]
  have hd := dim_pos cs
  have h1 : |(star (truncTo cl cs false E * Tᴴ).trace * (truncTo cl cs false (R * (D - D') * F) * Tᴴ).trace).re| ≤
      dim cs * (dim cs * ‖D - D'‖) := by
    refine (Complex.abs_re_le_norm _).trans ?_
    rw [norm_mul, norm_star]
    refine mul_le_mul ((trace_trunc_le cl cs hcs hT E).trans (by nlinarith [norm_nonneg E]))
      ((trace_trunc_le cl cs hcs hT _).trans (mul_le_mul_of_nonneg_left ?_ hd)) (norm_nonneg _) hd
    calc ‖R * (D - D') * F‖ ≤ ‖R‖ * ‖D - D'‖ * ‖F‖ := (Matrix.l2_opNorm_mul _ _).trans
          (mul_le_mul_of_nonneg_right (Matrix.l2_opNorm_mul _ _) (norm_nonneg _))
      _ ≤ 1 * ‖D - D'‖ * 1 := by gcongr
      _ = ‖D - D'‖ := by ring
  rw [abs_of_nonneg (by positivity : 0 ≤ 2 / dim cs / dim cs)]
  refine (mul_le_mul_of_nonneg_left h1 (by positivity)).trans ?_
  rcases hd.eq_or_lt with h0 | h0
  · rw [← h0]
    simp
  · refine le_of_eq ?_
    field_simp

theorem norm_unitary_le {U : Matrix n n ℂ} (hU : U ∈ Matrix.unitaryGroup n ℂ) : ‖U‖ ≤ 1 := by
  have := CStarRing.norm_mul_mem_unitary (1 : Matrix n n ℂ) (show U ∈ unitary (Matrix n n ℂ) from hU)
  rw [Matrix.one_mul] at this
  rw [this]
  exact norm_one_le

/-- The Hamiltonian of noise trace `k` in time step `t`. -/
noncomputable def traceHam (p : SPar n n) (M : MC n n) (τ : List ℝ) (U : Fin (p.xTimes τ).length → Fin p.ctrl.length → ℝ)
    (k : Nat) (t : Fin (p.xTimes τ).length) : Matrix n n ℂ :=
  p.drift.getD t 0 + noiseHam M.hNoise M.samples k t + ∑ c, (U t c : ℂ) • p.ctrl.get c

theorem foldl_unitary (l : List (Matrix n n ℂ)) : ∀ I : Matrix n n ℂ, (∀ P ∈ l, P ∈ Matrix.unitaryGroup n ℂ) →
    I ∈ Matrix.unitaryGroup n ℂ → l.foldl (fun F P => P * F) I ∈ Matrix.unitaryGroup n ℂ := by
  induction l with
  | nil => intro I _ h; exact h
  | cons P l ih =>
    intro I h1 h2
    exact ih _ (fun Q hQ => h1 Q (List.mem_cons_of_mem _ hQ)) (mul_mem (h1 P List.mem_cons_self) h2)

theorem noiseHam_isHermitian (hN : List (Matrix n n ℂ)) (hn : ∀ H ∈ hN, H.IsHermitian) (s : Arr3) (k t : Nat) :
    (noiseHam hN s k t).IsHermitian := by
  unfold noiseHam Matrix.IsHermitian
  rw [Matrix.conjTranspose_sum]
  refine Finset.sum_congr rfl fun j _ => ?_
  have hj : (hN[j])ᴴ = hN[j] := hn _ (List.getElem_mem j.2)
  rw [Matrix.conjTranspose_smul, hj]
  simp

/-- **C116** With the approximation 'grape' and a fixed target the gradient of `OperationNoiseInfidelity` differs from the gradient of
its cost by at most `τ_t²` times the mean norm of the commutator of the Hamiltonian of the step with the control. -/
theorem c116_gradient (p : SPar n n) (τ : List ℝ) (hv : p.Valid τ) (happ : p.approx = .grape) (hcd : p.calcDeriv = false)
    (hmeth : p.method = .frechet) (hE : p.L.ExpmOk) (hne : p.xTimes τ ≠ [])
    (hreach : ∀ U : Fin (p.xTimes τ).length → Fin p.ctrl.length → ℝ, ∃ y, ampsOf p.cfg τ y = some (rowsOf U))
    (M : MC n n) (hM : Sampled M p τ) (hd : ∀ H ∈ p.drift, H.IsHermitian) (hc : ∀ H ∈ p.ctrl, H.IsHermitian)
    (hn : ∀ H ∈ M.hNoise, H.IsHermitian) (hi : p.init ∈ Matrix.unitaryGroup n ℂ)
    (cl : Closest) (cs : Option (List n)) (hcs : ∀ l, cs = some l → l ≠ [] ∧ l.Nodup) (mcu : Bool) (hm : mcu = false ∨ cs = none)
    (T : Matrix (CompIdx cs) (CompIdx cs) ℂ) (hT : T ∈ Matrix.unitaryGroup (CompIdx cs) ℂ) (y x : Pulse)
    (U : Fin (p.xTimes τ).length → Fin p.ctrl.length → ℝ) :
    ∃ g G : Fin (p.xTimes τ).length → Fin p.ctrl.length → ℝ,
      mcGrad cl cs T mcu false M (p.xTimes τ) y x (rowsOf U) = .ok (rowsOf g) ∧
      (∃ cost : (Fin (p.xTimes τ).length → Fin p.ctrl.length → ℝ) → ℝ,
        (∀ V, mcCosts cl cs T mcu false M (p.xTimes τ) y x (rowsOf V) = .ok (cost V)) ∧
        ∃ L : (Fin (p.xTimes τ).length → Fin p.ctrl.length → ℝ) →L[ℝ] ℝ,
          HasFDerivAt cost L U ∧ ∀ V, L V = ∑ t, ∑ c, G t c * V t c) ∧
      ∀ t c, |g t c - G t c| ≤ (p.xTimes τ)[t] ^ 2 *
        ((∑ k : Fin M.nTraces, ‖traceHam p M τ U k t * p.ctrl.get c - p.ctrl.get c * traceHam p M τ U k t‖) / M.nTraces) := by
  have hnc : 0 < p.ctrl.length := List.length_pos_iff.mpr hv.1
  have hcs1 : cs ≠ some [] := fun h => (hcs _ h).1 rfl
  have hcs2 : ∀ l, cs = some l → l.Nodup := fun l h => (hcs l h).2
  set cost : (Fin (p.xTimes τ).length → Fin p.ctrl.length → ℝ) → ℝ := fun V =>
    noiseInfidelity cl cs T mcu false (p.final τ (rowsOf V)) M.nTraces fun k =>
      (p.noisy M.hNoise M.samples k).final τ (rowsOf V) with hcostdef
  have hcost : ∀ V, mcCosts cl cs T mcu false M (p.xTimes τ) y x (rowsOf V) = .ok (cost V) := by
    intro V
    obtain ⟨y₀, hy₀⟩ := hreach V
    obtain ⟨clean, noise, -, e2, e3, -, -, -, e4, e5, e6⟩ := mc_reads_grape p τ hv happ hcd hne M hM y₀ _ y x hy₀
    exact mcCosts_of p τ M _ y x cl cs T mcu false clean noise e2 e3 e4 e5 fun k hk => (e6 k hk).1.forward
  have hdiff : Differentiable ℝ cost :=
    noiseInfidelity_diff cl cs T mcu false hm M.nTraces (final_diff p τ hmeth hE)
      (F := fun k V => (p.noisy M.hNoise M.samples k).final τ (rowsOf V))
      (fun k => final_diff (p.noisy M.hNoise M.samples k) τ hmeth hE)
  -- a solver whose derivatives are exact
  obtain ⟨L', -, -, -, hL'⟩ := Solver.lapack_exists n
  set q : SPar n n := { p with L := { p.L with frechet := L'.frechet } } with hq
  have hFq : q.L.FrechetOk := hL'
  have hEq : q.L.ExpmOk := hE
  obtain ⟨y₀, hy₀⟩ := hreach U
  obtain ⟨hul, hrow⟩ := ampsOf_shape p.cfg τ y₀ _ hy₀
  obtain ⟨clean, noise, e1, e2, e3, -, -, e4, e5, e6, e7⟩ := mc_reads_grape p τ hv happ hcd hne M hM y₀ _ y x hy₀
  have hen : ∀ (A : Fin (p.xTimes τ).length → Fin p.ctrl.length → ℝ) (t : Fin (p.xTimes τ).length) (c : Fin p.ctrl.length),
      entry (rowsOf A) t c = some (A t c) := by
    intro A t c
    simp [entry, rowsOf]
  -- everything is unitary
  have hherm : ∀ k t, ((p.noisy M.hNoise M.samples k).drift.getD t 0).IsHermitian := by
    intro k t
    rw [List.getD_eq_getElem?_getD]
    cases h : (p.noisy M.hNoise M.samples k).drift[t]? with
    | none => exact Matrix.isHermitian_zero
    | some H =>
      obtain ⟨q, hq, rfl⟩ := List.mem_map.mp (List.mem_of_getElem? h)
      exact (hd _ (List.fst_mem_of_mem_zipIdx hq)).add (noiseHam_isHermitian _ hn _ _ _)
  have hstepu : ∀ k, ∀ P ∈ (p.noisy M.hNoise M.samples k).steps τ (rowsOf U), P ∈ Matrix.unitaryGroup n ℂ := by
    intro k P hP
    obtain ⟨t, -, rfl⟩ := List.mem_map.mp hP
    exact propOf_unitary (p.noisy M.hNoise M.samples k) (Or.inl ⟨hmeth, hE⟩) _ (hamiltonian_isHermitian _ (hherm k t) hc) _
  -- the parts of a trace
  have hpart : ∀ (t : Fin (p.xTimes τ).length) (c : Fin p.ctrl.length) (k : Nat), ∃ R F : Matrix n n ℂ, ∀ hk : k < noise.length,
      noise[k].rev.reverse[(t : Nat) + 1]? = some R ∧ noise[k].fwd[(t : Nat)]? = some F ∧ ‖R‖ ≤ 1 ∧ ‖F‖ ≤ 1 ∧
      (p.noisy M.hNoise M.samples k).final τ (rowsOf U) =
        R * (p.noisy M.hNoise M.samples k).step τ (rowsOf (U + (0 : ℝ) • unitAmp t c)) t * F ∧
      MatDeriv (fun z : ℝ => (p.noisy M.hNoise M.samples k).final τ (rowsOf (U + z • unitAmp t c)))
        (R * (q.noisy M.hNoise M.samples k).dstep τ (rowsOf U) t c * F) 0 := by
    intro t c k
    by_cases hk : k < noise.length
    swap
    · exact ⟨0, 0, fun h => absurd h hk⟩
    have hs := sweep_of (q.noisy M.hNoise M.samples k) τ (rowsOf U) t c hul hrow t.2 c.2 hmeth hEq hFq _
      (fun z => fwdLoop_isForward ((q.noisy M.hNoise M.samples k).steps τ (bump (rowsOf U) t c z)) p.init)
    obtain ⟨R, F, r1, r2, r3, r4, r5⟩ := hs.final (e7 k hk).1
    have hfin : ∀ z : ℝ, (p.noisy M.hNoise M.samples k).final τ (rowsOf (U + z • unitAmp t c)) =
        R * (p.noisy M.hNoise M.samples k).step τ (rowsOf (U + z • unitAmp t c)) t * F := by
      intro z
      have h1 := final_last (p := p.noisy M.hNoise M.samples k) (fwdLoop_isForward ((p.noisy M.hNoise M.samples k).steps τ
        (rowsOf (U + z • unitAmp t c))) p.init)
      have h2 := r3 z
      rw [rowsOf_bump] at h2
      rw [show (q.noisy M.hNoise M.samples k).steps = (p.noisy M.hNoise M.samples k).steps from rfl, h1] at h2
      exact Option.some.inj h2
    refine ⟨R, F, fun _ => ⟨r1, r2, ?_, ?_, ?_, ?_⟩⟩
    · have h1 := (e7 k hk).1.reversed
      rw [List.getElem?_reverse (by rw [h1.1, steps_length]; have := t.2; show (t : Nat) + 1 < (p.xTimes τ).length + 1; omega)] at r1
      have h2 := isReversed_unique h1 (noise[k].rev.length - 1 - (t + 1)) (by rw [h1.1]; omega)
      rw [r1] at h2
      rw [Option.some.inj h2]
      exact norm_unitary_le (foldl_unitary _ _ (fun P hP => hstepu k P (List.mem_of_mem_drop hP)) (one_mem _))
    · have h1 := (e7 k hk).1.forward
      have h2 := isForward_unique h1 t (by rw [steps_length]; exact t.2.le)
      rw [r2] at h2
      rw [Option.some.inj h2]
      exact norm_unitary_le (foldl_unitary _ _ (fun P hP => hstepu k P (List.mem_of_mem_take hP)) hi)
    · have := hfin 0
      rwa [show U + (0 : ℝ) • unitAmp t c = U by simp] at this ⊢
    · refine r5.congr (fun z => ?_) rfl
      rw [hfin z, rowsOf_bump]
      rfl
  choose R F hRF using hpart
  have hfinu : ∀ k, ‖(p.noisy M.hNoise M.samples k).final τ (rowsOf U)‖ ≤ 1 := fun k =>
    norm_unitary_le (foldl_unitary _ _ (hstepu k) hi)
  obtain ⟨gl, g1, g2, g3⟩ := noiseGrad_entries cl cs hcs1 T mcu p.init (p.xTimes τ).length p.ctrl.length hnc clean noise
    (fun k => (p.noisy M.hNoise M.samples k).steps τ (rowsOf U)) (fun k hk => ⟨(e7 k hk).1, steps_length _ _ _⟩)
    (fun k => (p.noisy M.hNoise M.samples k).final τ (rowsOf U)) (fun k hk => final_last (e7 k hk).1.forward)
  set val : (Nat → Matrix n n ℂ) → Fin (p.xTimes τ).length → Fin p.ctrl.length → Nat → ℝ := fun D t c k =>
    2 / dim cs / dim cs * (star (truncTo cl cs false ((p.noisy M.hNoise M.samples k).final τ (rowsOf U)) * Tᴴ).trace *
          (truncTo cl cs false (R t c k * D k * F t c k) * Tᴴ).trace).re with hval
  set g : Fin (p.xTimes τ).length → Fin p.ctrl.length → ℝ := fun t c =>
    (∑ k : Fin M.nTraces, -val (fun k => grapeStep (p.noisy M.hNoise M.samples k) τ (rowsOf U) t c) t c k) / M.nTraces with hg
  set G : Fin (p.xTimes τ).length → Fin p.ctrl.length → ℝ := fun t c =>
    (∑ k : Fin M.nTraces, -val (fun k => (q.noisy M.hNoise M.samples k).dstep τ (rowsOf U) t c) t c k) / M.nTraces with hG
  have hgl : gl = rowsOf g := by
    have hent : ∀ (t : Fin (p.xTimes τ).length) (c : Fin p.ctrl.length), entry gl t c = some (g t c) := by
      intro t c
      have := g3 t c (R t c) (fun k => grapeStep (p.noisy M.hNoise M.samples k) τ (rowsOf U) t c) (F t c) t.2 c.2
        (fun k hk => ⟨(hRF t c k hk).1, (e7 k hk).2 t c t.2 c.2, (hRF t c k hk).2.1⟩)
      rw [this]
      simp only [hg, hval]
      rw [e6]
    refine List.ext_getElem (by simp [rowsOf, g2.1]) fun i h1 h2 => ?_
    have hi' : i < (p.xTimes τ).length := by simpa [rowsOf] using h2
    refine List.ext_getElem (by rw [g2.2 _ (List.getElem_mem _)]; simp [rowsOf]) fun j h3 h4 => ?_
    have hj' : j < p.ctrl.length := by simpa [rowsOf] using h4
    have := hent ⟨i, hi'⟩ ⟨j, hj'⟩
    simp only [entry, List.getElem?_eq_getElem h1, Option.bind_some, List.getElem?_eq_getElem h3, Option.some.injEq] at this
    simp [this, rowsOf]
  have hGd : ∀ (t : Fin (p.xTimes τ).length) (c : Fin p.ctrl.length),
      HasDerivAt (fun z : ℝ => cost (U + z • unitAmp t c)) (G t c) 0 := by
    intro t c
    simp only [hcostdef, noiseInfidelity, Bool.false_eq_true, if_false]
    refine HasDerivAt.div_const (HasDerivAt.fun_sum fun k _ => ?_) _
    have := (entFid_deriv cl cs mcu hm T (hRF t c k (by rw [e6]; exact k.2)).2.2.2.2.2).const_sub 1
    refine this.congr_deriv ?_
    simp only [hval, zero_smul, add_zero]
  obtain ⟨G', hG', L, hL1, hL2⟩ := total_of_entries cost hdiff U (rowsOf G) (rowsOf_shape G) fun t c => ⟨G t c, hen G t c, hGd t c⟩
  have hGG : ∀ t c, G' t c = G t c := by
    intro t c
    have h1 := hen G t c
    rw [hG', hen G' t c] at h1
    exact Option.some.inj h1
  refine ⟨g, G, ?_, ⟨cost, hcost, L, hL1, fun V => ?_⟩, fun t c => ?_⟩
  · unfold mcGrad
    rw [e1, e4]
    simp only [bind, Except.bind]
    rw [show M.base.nCtrl = p.ctrl.length by rw [hM.base]; rfl, g1, hgl]
  · rw [hL2]
    simp only [hGG]
  · have hKpos : (0 : ℝ) < M.nTraces := by exact_mod_cast hM.some_trace
    have hone : ∀ k : Fin M.nTraces, |val (fun k => grapeStep (p.noisy M.hNoise M.samples k) τ (rowsOf U) t c) t c k -
        val (fun k => (q.noisy M.hNoise M.samples k).dstep τ (rowsOf U) t c) t c k| ≤ (p.xTimes τ)[t] ^ 2 *
        ‖traceHam p M τ U k t * p.ctrl.get c - p.ctrl.get c * traceHam p M τ U k t‖ := by
      intro k
      obtain ⟨-, -, hR1, hF1, -, -⟩ := hRF t c k (by rw [e6]; exact k.2)
      refine (entry_close cl cs hcs2 hT (hfinu k) hR1 hF1).trans ?_
      have hH : hamiltonian ((p.noisy M.hNoise M.samples k).drift.getD t 0) p.ctrl ((rowsOf U).getD t []) = traceHam p M τ U k t := by
        have ht : (t : Nat) < p.drift.length := by rw [hv.2.1]; exact t.2
        rw [rowsOf_get U t t.2, hamiltonian_sum, traceHam]
        simp [SPar.noisy, List.getD_eq_getElem?_getD, List.getElem?_zipIdx, List.getElem?_eq_getElem ht]
      have hHh : (traceHam p M τ U k t).IsHermitian := by
        rw [← hH]
        exact hamiltonian_isHermitian _ (hherm k t) hc
      exact grape_step (p.xTimes τ)[t] hHh (p.ctrl.get c) _ _ (by
        show grapeStep (p.noisy M.hNoise M.samples k) τ (rowsOf U) t c = _
        unfold grapeStep SPar.step
        rw [show (p.noisy M.hNoise M.samples k).ctrl = p.ctrl from rfl, hH]
        have hpo : ∀ G σ, propOf (p.noisy M.hNoise M.samples k).cfg G σ = NormedSpace.exp ((σ : ℂ) • G) := by
          intro G σ
          unfold propOf dexpProp expProp
          have : (p.noisy M.hNoise M.samples k).cfg.method = .frechet := hmeth
          rw [this]
          split <;> exact hE _
        rw [hpo, show (p.noisy M.hNoise M.samples k).xTimes τ = p.xTimes τ from rfl, List.getD_eq_getElem _ _ t.2,
          List.getD_eq_getElem _ _ c.2]
        rfl) (by
        have := hL' ((((p.xTimes τ)[t] : ℝ) : ℂ) • (-Complex.I) • traceHam p M τ U k t)
          ((((p.xTimes τ)[t] : ℝ) : ℂ) • (-Complex.I) • p.ctrl.get c)
        refine this.congr (fun _ => rfl) ?_
        show _ = L'.frechet _ _
        rw [show (q.noisy M.hNoise M.samples k).xTimes τ = p.xTimes τ from rfl, List.getD_eq_getElem _ _ t.2]
        rw [← hH]
        congr 3
        exact (List.getD_eq_getElem _ _ c.2).symm)
    simp only [hg, hG]
    rw [← sub_div, ← Finset.sum_sub_distrib, abs_div, abs_of_pos hKpos, ← mul_div_assoc, Finset.mul_sum]
    gcongr
    refine (Finset.abs_sum_le_sum_abs _ _).trans (Finset.sum_le_sum fun k _ => ?_)
    rw [show ∀ a b : ℝ, -a - -b = -(a - b) by intros; ring, abs_neg]
    exact hone k

/-- **C116** The entries of `frechet_deriv_propagators` differ from the derivatives of the propagators by at most half the square of
the duration of the step times the norm of the commutator.  (The entry of step `t` and control `c` is found at `[t][c]`, C32.) -/
theorem c116_step (p : SPar n n) (τ : List ℝ) (hv : p.Valid τ) (happ : p.approx = .grape) (hcd : p.calcDeriv = false)
    (hmeth : p.method = .frechet) (hE : p.L.ExpmOk) (hd : ∀ H ∈ p.drift, H.IsHermitian) (hc : ∀ H ∈ p.ctrl, H.IsHermitian)
    (t c : Nat) (ht : t < (p.xTimes τ).length) (hct : c < p.ctrl.length) (u : Pulse) (Y : ℝ → Pulse)
    (hY : ∀ x, ampsOf p.cfg τ (Y x) = some (bump u t c x)) :
    ∃ (P : ℝ → Matrix n n ℂ) (D X H : Matrix n n ℂ) (d : List (List (Option (Option (Matrix n n ℂ))))),
      (∀ x, ∃ ps : List (Matrix n n ℂ), (readProps p.cfg (fresh p.cfg τ (Y x))).1 = .ok (ps.map some) ∧
        ps[t]? = some (P x)) ∧ MatDeriv P D 0 ∧
      (readDeriv p.cfg (fresh p.cfg τ (Y 0))).1 = .ok d ∧ (d[t]?.bind fun row => row[c]?) = some (some (some X)) ∧
      H = p.drift.getD t 0 + (List.zipWith (fun (a : ℝ) C => (a : ℂ) • C) (u.getD t []) p.ctrl).sum ∧
      ‖X - D‖ ≤ (p.xTimes τ)[t] ^ 2 / 2 * ‖H * p.ctrl[c] - p.ctrl[c] * H‖ := by
  have hst : Stable p.cfg := Or.inr (Or.inr ⟨by show p.approx ≠ .none; rw [happ]; simp, hcd⟩)
  have hu0 : ampsOf p.cfg τ (Y 0) = some u := by rw [hY, bump_zero]
  obtain ⟨hul, hrow⟩ := ampsOf_shape p.cfg τ _ u hu0
  obtain ⟨L', -, -, -, hL'⟩ := Solver.lapack_exists n
  set q : SPar n n := { p with L := { p.L with frechet := L'.frechet } } with hq
  have hs := sweep_of q τ u t c hul hrow ht hct hmeth hE hL' _
    (fun z => fwdLoop_isForward (q.steps τ (bump u t c z)) p.init)
  have hgl : (p.xTimes τ).length ≤ (p.cfg.gens u).length := by
    show _ ≤ (schroedGens p.drift p.ctrl u).length
    rw [schroedGens_length, hv.2.1]
  have hg := grapeCells_ok p τ hv u
  have hrd : (readDeriv p.cfg (fresh p.cfg τ (Y 0))).1 = .ok (grapeCells p.cfg (p.xTimes τ) u).1 :=
    readDeriv_grape p.cfg happ τ (Y 0) u hu0
      (by show (cellsP p.cfg (p.xTimes τ) u).2 = none; rw [cellsP_ok p.cfg hv.2.2 _ u hgl])
      (by show (grapeCells p.cfg (p.xTimes τ) u).2 = none; rw [hg])
  rw [hg] at hrd
  have htd : t < p.drift.length := by rw [hv.2.1]; exact ht
  have htu : t < u.length := by rw [hul]; exact ht
  have hgen : (p.cfg.gens u).getD t 0 = (-Complex.I) • hamiltonian (p.drift.getD t 0) p.ctrl (u.getD t []) := by
    rw [List.getD_eq_getElem?_getD]
    show ((schroedGens p.drift p.ctrl u)[t]?).getD 0 = _
    rw [schroedGens_getElem p.drift p.ctrl u t _ _ (List.getElem?_eq_getElem htd) (List.getElem?_eq_getElem htu)
      (hrow _ (List.getElem_mem htu)), List.getD_eq_getElem _ _ htd, List.getD_eq_getElem _ _ htu]
    rfl
  have hexp : ∀ G (σ : ℝ), expProp p.L p.method p.skew G σ = NormedSpace.exp ((σ : ℂ) • G) := by
    intro G σ
    unfold expProp
    rw [hmeth]
    exact hE _
  have hHh : (hamiltonian (p.drift.getD t 0) p.ctrl (u.getD t [])).IsHermitian :=
    hamiltonian_isHermitian _ (by rw [List.getD_eq_getElem _ _ htd]; exact hd _ (List.getElem_mem _)) hc
  have hcell : ((((List.range (p.xTimes τ).length).map fun t => p.ctrl.map fun H => some (some
      ((((p.xTimes τ).getD t 0 : ℝ) : ℂ) • ((-Complex.I) • H) *
        expProp p.L p.method p.skew ((p.cfg.gens u).getD t 0) ((p.xTimes τ).getD t 0)))))[t]?.bind fun row => row[c]?) =
      some (some (some (((((p.xTimes τ)[t] : ℝ) : ℂ) * (-Complex.I)) • (p.ctrl[c] * NormedSpace.exp ((((p.xTimes τ)[t] : ℝ) : ℂ) •
        (-Complex.I) • hamiltonian (p.drift.getD t 0) p.ctrl (u.getD t [])))))) := by
    rw [List.getElem?_map, List.getElem?_range ht, Option.map_some, Option.bind_some, List.getElem?_map,
      List.getElem?_eq_getElem hct, Option.map_some, hexp, hgen, List.getD_eq_getElem _ _ ht, Matrix.smul_mul, Matrix.smul_mul,
      smul_smul]
  refine ⟨fun x => q.step τ (bump u t c x) t, q.dstep τ u t c, _, hamiltonian (p.drift.getD t 0) p.ctrl (u.getD t []), _,
    fun x => ?_, hs.deriv, hrd, hcell, rfl, ?_⟩
  · have hr := ready_fresh p τ (Y x) _ (hY x)
    refine ⟨p.steps τ (bump u t c x), ?_, ?_⟩
    · rw [(readProps_ok hst hr.inv).1, specProps, hr.cells hv]
      rfl
    · simp only [SPar.steps, List.getElem?_map, List.getElem?_range ht, Option.map_some]
      rfl
  · have h := grape_step (p.xTimes τ)[t] hHh p.ctrl[c] _ (q.dstep τ u t c) rfl (by
      refine (hL' _ _).congr (fun _ => rfl) ?_
      show _ = L'.frechet ((((p.xTimes τ).getD t 0 : ℝ) : ℂ) • (-Complex.I) • hamiltonian (p.drift.getD t 0) p.ctrl (u.getD t []))
        ((((p.xTimes τ).getD t 0 : ℝ) : ℂ) • (-Complex.I) • p.ctrl.getD c 0)
      rw [List.getD_eq_getElem _ _ ht, List.getD_eq_getElem p.ctrl _ hct])
    linarith

theorem allOk_length {α : Type} : ∀ (l : List (Except PyErr α)) (r : List α), allOk l = .ok r → r.length = l.length := by
  intro l
  induction l with
  | nil => intro r h; simp only [allOk, Except.ok.injEq] at h; subst h; rfl
  | cons x l ih =>
    intro r h
    cases x with
    | error e => simp [allOk, bind, Except.bind] at h
    | ok a =>
      cases hl : allOk l with
      | error e => simp [allOk, bind, Except.bind, hl] at h
      | ok r' =>
        simp only [allOk, bind, Except.bind, hl, pure, Except.pure, Except.ok.injEq] at h
        subst h
        simp [ih r' hl]

/-- **C116** is violated with the default `neglect_systematic_errors=True`: the derivatives without noise are arranged
`[time step][control]`, and the gradient raises an exception if there are not as many time steps as controls. -/
theorem c116_violated_default (p : SPar n n) (τ : List ℝ) (hv : p.Valid τ) (happ : p.approx = .grape) (hcd : p.calcDeriv = false)
    (hne : p.xTimes τ ≠ []) (hshape : (p.xTimes τ).length ≠ p.ctrl.length) (M : MC n n) (hM : Sampled M p τ)
    (cl : Closest) (cs : Option (List n)) (hcs : cs ≠ some []) (mcu : Bool)
    (T : Matrix (CompIdx cs) (CompIdx cs) ℂ) (y₀ y x u : Pulse) (hu : ampsOf p.cfg τ y₀ = some u) :
    ∃ e, mcGrad cl cs T mcu true M (p.xTimes τ) y x u = .error e := by
  have hnc : 0 < p.ctrl.length := List.length_pos_iff.mpr hv.1
  obtain ⟨clean, noise, e1, e2, e3, e3', e3'', e4, e5, e6, e7⟩ := mc_reads_grape p τ hv happ hcd hne M hM y₀ _ y x hu
  have hlen : ∀ (N : Nat) (f : Nat → Except PyErr (List ℝ)) b, allOk ((List.range N).map f) = .ok b → b.length = N := by
    intro N f b hb
    simpa using allOk_length _ _ hb
  cases noise with
  | nil => simp at e6; have := hM.some_trace; omega
  | cons tr noise =>
    have h0 := (e7 0 (by simp)).1
    have hl : tr.fwd.getLast? = some ((p.noisy M.hNoise M.samples 0).final τ u) := final_last h0.forward
    obtain ⟨a, a1, a2⟩ : ∃ g, derivEntFid cl cs (truncTo cl cs mcu (p.final τ u)) tr.fwd tr.dP tr.rev false = .ok g ∧
        g.length = (p.xTimes τ).length := by
      obtain ⟨g, h1, h2, -⟩ := gradTable_entry h0 hnc fun X => 2 / dim cs / dim cs *
        (star (truncTo cl cs false ((p.noisy M.hNoise M.samples 0).final τ u) * (truncTo cl cs mcu (p.final τ u))ᴴ).trace *
          (truncTo cl cs false X * (truncTo cl cs mcu (p.final τ u))ᴴ).trace).re
      rw [steps_length] at h2
      refine ⟨g, ?_, h2.1⟩
      unfold derivEntFid
      rw [if_neg hcs, last_ok hl]
      exact h1
    -- the sum of the two tables fails
    have hadd : ∃ e, (do
        let temp' ← derivEntFid cl cs (truncTo cl cs mcu ((p.noisy M.hNoise M.samples 0).final τ u)) clean.fwd clean.dP clean.rev
          false
        addTable a temp' : Except PyErr (List (List ℝ))) = .error e := by
      cases hb : derivEntFid cl cs (truncTo cl cs mcu ((p.noisy M.hNoise M.samples 0).final τ u)) clean.fwd clean.dP clean.rev
          false with
      | error e => exact ⟨e, rfl⟩
      | ok b =>
        refine ⟨.valueError, ?_⟩
        have hbl : b.length = p.ctrl.length := by
          unfold derivEntFid at hb
          rw [if_neg hcs, last_ok (final_last e3)] at hb
          simp only [bind, Except.bind, gradTable, idx] at hb
          have hpos : 0 < clean.dP.length := by rw [e3''.1]; exact List.length_pos_iff.mpr hne
          rw [List.getElem?_eq_getElem hpos] at hb
          simp only [table] at hb
          rw [hlen _ _ _ hb]
          exact e3''.2 _ (List.getElem_mem hpos)
        show addTable a b = _
        unfold addTable
        rw [if_neg]
        intro h
        have := congrArg List.length h
        simp only [List.length_map] at this
        omega
    obtain ⟨e, he⟩ := hadd
    refine ⟨e, ?_⟩
    unfold mcGrad
    rw [e1, e4]
    simp only [bind, Except.bind]
    unfold noiseGrad effTarget
    rw [if_pos rfl, last_ok (final_last e3)]
    simp only [bind, Except.bind, pure, Except.pure, List.map_cons, allOk, if_true, a1, last_ok hl] at he ⊢
    rw [he]

end
/-! ### Cases of C116 -/

namespace Ex116

/-- Two traces of noise on the drift of a qubit. -/
noncomputable def mc (L : Lapack (Fin 2)) : MC (Fin 2) (Fin 2) :=
  ⟨(qubitPar L .grape false).cfg, [!![1, 0; 0, -1]], .int 1, none, 2, ⟨1, 2, 3, fun _ k t => 10 * k + t⟩⟩

theorem sampled (L : Lapack (Fin 2)) : Sampled (mc L) (qubitPar L .grape false) [1, 2, 3] :=
  ⟨rfl, rfl, rfl, rfl, rfl, rfl, by simp [mc]⟩

theorem herm (L : Lapack (Fin 2)) : (∀ H ∈ (qubitPar L .grape false).drift, H.IsHermitian) ∧
    (∀ H ∈ (qubitPar L .grape false).ctrl, H.IsHermitian) ∧ ∀ H ∈ (mc L).hNoise, H.IsHermitian := by
  refine ⟨fun H hH => ?_, fun H hH => ?_, fun H hH => ?_⟩
  · simp [qubitPar] at hH
    rw [hH]
    ext i j; fin_cases i <;> fin_cases j <;> simp
  · simp [qubitPar] at hH
    rcases hH with rfl | rfl <;> (ext i j; fin_cases i <;> fin_cases j <;> simp)
  · simp [mc] at hH
    rw [hH]
    ext i j; fin_cases i <;> fin_cases j <;> simp

end Ex116

open scoped Matrix.Norms.L2Operator in
/-- `c116_gradient` applies to a qubit with two controls, three time steps and two noise traces. -/
example (cl : Closest) (U : Fin 3 → Fin 2 → ℝ) : ∃ (L : Lapack (Fin 2)) (g : Fin 3 → Fin 2 → ℝ),
    mcGrad cl none 1 false false (Ex116.mc L) [1, 2, 3] [] [] (rowsOf U) = .ok (rowsOf g) := by
  obtain ⟨L, -, -, hE, -⟩ := Solver.lapack_exists (Fin 2)
  obtain ⟨g, G, h, -⟩ := c116_gradient (qubitPar L .grape false) [1, 2, 3] (qubitPar_valid L _ _) rfl rfl rfl hE (by simp [qubitPar])
    (fun V => ⟨rowsOf V, qubitPar_amps L _ _ _ (rowsOf_shape V).1 (rowsOf_shape V).2⟩) (Ex116.mc L) (Ex116.sampled L)
    (Ex116.herm L).1 (Ex116.herm L).2.1 (Ex116.herm L).2.2 (one_mem _) cl none (by simp) false (Or.inl rfl) 1 (one_mem _) [] [] U
  exact ⟨L, g, h⟩

open scoped Matrix.Norms.L2Operator in
/-- `c116_step` applies. -/
example : ∃ (L : Lapack (Fin 2)) (d : List (List (Option (Option (Matrix (Fin 2) (Fin 2) ℂ))))),
    (readDeriv (qubitPar L .grape false).cfg (fresh (qubitPar L .grape false).cfg [1, 2, 3]
      (bump [[1, 2], [3, 4], [5, 6]] 2 1 0))).1 = .ok d := by
  obtain ⟨L, -, -, hE, -⟩ := Solver.lapack_exists (Fin 2)
  obtain ⟨_, _, _, _, d, -, -, h, -⟩ := c116_step (qubitPar L .grape false) [1, 2, 3] (qubitPar_valid L _ _) rfl rfl rfl hE
    (Ex116.herm L).1 (Ex116.herm L).2.1 2 1 (by simp [qubitPar]) (by simp [qubitPar]) [[1, 2], [3, 4], [5, 6]]
    (bump [[1, 2], [3, 4], [5, 6]] 2 1) (fun x => qubitPar_amps L _ _ _ (by simp [bump]) (by simp [bump]))
  exact ⟨L, d, h⟩

/-- `c116_violated_default` applies: three time steps and two controls. -/
example (L : Lapack (Fin 2)) (cl : Closest) :
    ∃ e, mcGrad cl none 1 false true (Ex116.mc L) [1, 2, 3] [] [] [[1, 2], [3, 4], [5, 6]] = .error e :=
  c116_violated_default (qubitPar L .grape false) [1, 2, 3] (qubitPar_valid L _ _) rfl rfl (by simp [qubitPar]) (by simp [qubitPar])
    (Ex116.mc L) (Ex116.sampled L) cl none (by simp) false 1 [[1, 2], [3, 4], [5, 6]] [] [] _
    (qubitPar_amps L _ _ _ rfl (by simp))

end Verif.Cost
