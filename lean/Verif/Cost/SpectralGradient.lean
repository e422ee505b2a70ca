import Verif.Cost.Solver
import Verif.Sim.Covariance
import Mathlib.Data.Fin.Tuple.Sort

/-!
# C168: gradients with the spectral method

`OperationInfidelity.grad` (cost_functions.py:1293-1316) with a `SchroedingerSolver` (solver_algorithms.py:840-1012) created with
`exponential_method='spectral'`, whose derivatives are those of `_dexp_diagonalization` (matrix.py:1005-1069).
-/

namespace Verif.Cost
open Verif Verif.Operator Verif.Solver Matrix
open scoped ComplexConjugate

section
variable {n m : Type} [Fintype n] [DecidableEq n] [Fintype m]

/-! ## Lemmas -/

/-- The total Hamiltonian of step `t`. -/
noncomputable def hamAt (p : SPar n m) (u : Solver.Pulse) (t : Nat) : Matrix n n ℂ := hamiltonian (p.drift.getD t 0) p.ctrl (u.getD t [])

/-- The derivative of step `t` by control `c` with method 'spectral'. -/
noncomputable def spectralDeriv (p : SPar n m) (τ : List ℝ) (u : Solver.Pulse) (t c : Nat) : Matrix n n ℂ :=
  dexpFormula (decomp p.L ((-Complex.I) • hamAt p u t) true).1 (decomp p.L ((-Complex.I) • hamAt p u t) true).2 (((p.xTimes τ).getD t 0 : ℝ) : ℂ)
    ((-Complex.I) • p.ctrl.getD c 0)

theorem Ready.derivSpectral {p : SPar n m} {τ : List ℝ} {u : Solver.Pulse} {s : St n m} (h : Ready p τ u s) (hv : p.Valid τ)
    (hst : Stable p.cfg) (hmeth : p.method = .spectral) (hsk : p.skew = true) (happ : p.approx = .none)
    (hinj : ∀ t < (p.xTimes τ).length, Function.Injective (decomp p.L ((-Complex.I) • hamAt p u t) true).1) :
    ∃ d s', readDeriv p.cfg s = (.ok d, s') ∧ plainDerivs d = .ok ((List.range p.ctrl.length).map fun c =>
      (List.range (p.xTimes τ).length).map fun t => spectralDeriv p τ u t c) ∧ Ready p τ u s' := by
  obtain ⟨y, hy⟩ := h.shape
  obtain ⟨hul, hrow⟩ := ampsOf_shape p.cfg τ y u hy
  have hul' : u.length = (p.xTimes τ).length := hul
  have hap' : p.cfg.approx = .none := happ
  have hm' : p.cfg.method = .spectral := hmeth
  have hs' : p.cfg.skew = true := hsk
  have h1 := readDeriv_ok hst h.inv
  have hcells := cellsD_ok p.cfg hv.2.2 (p.xTimes τ) u
    (by show _ ≤ (schroedGens p.drift p.ctrl u).length; rw [schroedGens_length, hv.2.1]) (p.dirs_ok hv.1 _ _)
  have hd : specDeriv p.cfg s.times u = .ok (byControl p.cfg.nCtrl
      ((cellsD p.cfg (p.xTimes τ) u).1.map Prod.snd)) := by
    simp only [specDeriv, hap', h.times, hcells, orErr]
  obtain ⟨h3, h4⟩ := h1
  rw [hd] at h3
  obtain ⟨h5, h6⟩ := h4 ⟨_, h3⟩
  refine ⟨_, _, Prod.ext h3 rfl, ?_, h5, h6.trans h.times, h.shape⟩
  have hn : p.cfg.nCtrl = p.ctrl.length := rfl
  unfold plainDerivs byControl
  rw [hcells, List.map_map, hn]
  refine allOk_map _ _ _ fun c hc => ?_
  have hc' := List.mem_range.mp hc
  simp only [Function.comp, List.map_map]
  refine allOk_map _ _ _ fun t ht => ?_
  have ht' := List.mem_range.mp ht
  have h7 : t < p.drift.length := by rw [hv.2.1]; exact ht'
  have h8 : t < u.length := by omega
  have hdir : (p.cfg.dirs (p.xTimes τ) u).getD t [] = p.ctrl.map fun H => (-Complex.I) • H := by
    show (List.replicate (p.xTimes τ).length _).getD t [] = _
    rw [List.getD_eq_getElem?_getD, List.getElem?_replicate, if_pos ht']
    rfl
  have hgen : (p.cfg.gens u).getD t 0 = (-Complex.I) • hamAt p u t := by
    rw [List.getD_eq_getElem?_getD]
    show ((schroedGens p.drift p.ctrl u)[t]?).getD 0 = _
    rw [schroedGens_getElem p.drift p.ctrl u t _ _ (List.getElem?_eq_getElem h7) (List.getElem?_eq_getElem h8)
      (hrow _ (List.getElem_mem h8)), hamAt, List.getD_eq_getElem _ _ h7, List.getD_eq_getElem _ _ h8]
    rfl
  simp only [Function.comp, hdir, hgen, List.getElem?_map, List.getElem?_eq_getElem hc', Option.map_some]
  have hi : Function.Injective (decomp p.cfg.L ((-Complex.I) • hamAt p u t) true).1 := hinj t ht'
  simp only [gradOf, dexpGrad, hm', hs', dexp, dexpDiagonalization, if_pos hi, spectralDeriv, List.getD_eq_getElem _ _ hc']
  rfl

/-- What a gradient reads. -/
theorem Ready.traceSpectral {p : SPar n m} {τ : List ℝ} {u : Solver.Pulse} {s : St n m} (h : Ready p τ u s) (hv : p.Valid τ)
    (hst : Stable p.cfg) (hmeth : p.method = .spectral) (hsk : p.skew = true) (happ : p.approx = .none) (hne : p.xTimes τ ≠ [])
    (hinj : ∀ t < (p.xTimes τ).length, Function.Injective (decomp p.L ((-Complex.I) • hamAt p u t) true).1) :
    ∃ tr s', readTrace p.cfg s = (.ok tr, s') ∧ tr.Of p.init (p.steps τ u) p.ctrl.length ∧
      (∀ t c, t < (p.xTimes τ).length → c < p.ctrl.length → tr.derivAt t c = some (spectralDeriv p τ u t c)) ∧ Ready p τ u s' := by
  obtain ⟨f, s1, e1, hf, r1⟩ := h.fwd hv hst
  obtain ⟨r, s2, e2, hr, r2⟩ := r1.rev hv hst hne
  obtain ⟨d, s3, e3, hd, r3⟩ := r2.derivSpectral hv hst hmeth hsk happ hinj
  refine ⟨⟨f, (List.range p.ctrl.length).map fun c =>
    (List.range (p.xTimes τ).length).map fun t => spectralDeriv p τ u t c, r⟩, s3, ?_, ⟨hf, hr, ?_⟩, fun t c ht hc => ?_, r3⟩
  · unfold readTrace
    rw [e1]; simp only
    rw [e2]; simp only
    rw [e3]; simp only
    rw [hd]
  · refine ⟨by simp, fun row hrow => ?_⟩
    obtain ⟨c, -, rfl⟩ := List.mem_map.mp hrow
    simp [steps_length]
  · simp [Trace.derivAt, List.getElem?_range hc, List.getElem?_range ht]

theorem skew_of_hermitian {H : Matrix n n ℂ} (h : H.IsHermitian) : ((-Complex.I) • H)ᴴ = -((-Complex.I) • H) := by
  rw [Matrix.conjTranspose_smul, h.eq]
  simp

theorem hamAt_hermitian (p : SPar n m) (hd : ∀ H ∈ p.drift, H.IsHermitian) (hc : ∀ H ∈ p.ctrl, H.IsHermitian) (u : Solver.Pulse) (t : Nat) :
    (hamAt p u t).IsHermitian := by
  refine Sim.hamiltonian_hermitian ?_ hc _
  rw [List.getD_eq_getElem?_getD]
  cases h : p.drift[t]? with
  | none => exact Matrix.isHermitian_zero
  | some H => exact hd _ (List.mem_of_getElem? h)

/-- The propagators are exponentials. -/
theorem step_spectral (p : SPar n m) (hmeth : p.method = .spectral) (hsk : p.skew = true) (hL : p.L.EighOk)
    (hd : ∀ H ∈ p.drift, H.IsHermitian) (hc : ∀ H ∈ p.ctrl, H.IsHermitian) (τ : List ℝ) (u : Solver.Pulse) (t : Nat) :
    p.step τ u t = NormedSpace.exp ((((p.xTimes τ).getD t 0 : ℝ) : ℂ) • (-Complex.I) • hamAt p u t) := by
  have h := c19_exponential p.L hL ((-Complex.I) • hamAt p u t) (skew_of_hermitian (hamAt_hermitian p hd hc u t)) (((p.xTimes τ).getD t 0 : ℝ) : ℂ)
  have h' := exp_expProp p.L (method := .spectral) (by simp) true ((-Complex.I) • hamAt p u t) ((p.xTimes τ).getD t 0)
  have hE : expProp p.L .spectral true ((-Complex.I) • hamAt p u t) ((p.xTimes τ).getD t 0) = _ := Except.ok.inj (h'.symm.trans h)
  have hm' : p.cfg.method = .spectral := hmeth
  have hs' : p.cfg.skew = true := hsk
  unfold SPar.step propOf
  rw [hm', hs']
  split
  · rw [← expProp_eq_dexpProp _ (Or.inl rfl)]
    exact hE
  · exact hE

end

/-! ### Three levels -/

/-- A three level system with drift `-diag(2, 0, 1)` and a control coupling the levels 0 and 1, one time step. -/
noncomputable def threeLevel (L : Lapack (Fin 3)) (cd : Bool) : SPar (Fin 3) (Fin 3) :=
  ⟨L, .spectral, true, cd, .none, 1, [-Matrix.diagonal hDiag], [dMat], idTf, id, idAmp⟩

/-- The propagator of `threeLevel` at amplitude 0 after the time `π`. -/
def threeU : Matrix (Fin 3) (Fin 3) ℂ := !![1, 0, 0; 0, 1, 0; 0, 0, -1]

/-- A target: a rotation of the levels 0 and 1. -/
noncomputable def threeT : Matrix (Fin 3) (Fin 3) ℂ := !![3 / 5, 4 / 5, 0; -(4 / 5), 3 / 5, 0; 0, 0, -1]

/-- What the spectral method returns as the derivative of the propagator. -/
def threeG : Matrix (Fin 3) (Fin 3) ℂ := !![0, 2, 0; -2, 0, 0; 0, 0, 0]

theorem threeLevel_amps (L : Lapack (Fin 3)) (cd : Bool) (x : ℝ) : ampsOf (threeLevel L cd).cfg [Real.pi] [[x]] = some [[x]] :=
  ampsOf_simple L .spectral cd .none 1 [-Matrix.diagonal hDiag] [dMat] [Real.pi] [[x]] (by simp) rfl (by simp)

theorem hDiag_herm : (Matrix.diagonal hDiag : Matrix (Fin 3) (Fin 3) ℂ).IsHermitian := by
  rw [Matrix.IsHermitian, Matrix.diagonal_conjTranspose]
  congr 1
  ext i; fin_cases i <;> simp

theorem dMat_herm : dMat.IsHermitian := by
  ext i j; fin_cases i <;> fin_cases j <;> simp [dMat]

theorem threeLevel_gen (L : Lapack (Fin 3)) (cd : Bool) (x : ℝ) :
    (-Complex.I) • hamAt (threeLevel L cd) [[x]] 0 = aMat + (x : ℂ) • ((-Complex.I) • dMat) := by
  have : hamAt (threeLevel L cd) [[x]] 0 = -Matrix.diagonal hDiag + (x : ℂ) • dMat := by
    simp [hamAt, threeLevel, hamiltonian]
  rw [this, smul_add, smul_comm, ← aMat_herm, ← smul_neg, smul_smul]
  simp

theorem aMat_lam (L : Lapack (Fin 3)) (hL : L.EighOk)
    (hasc : ∀ H : Matrix (Fin 3) (Fin 3) ℂ, H.IsHermitian → Monotone (L.eigh H).1) :
    (decomp L aMat true).1 = ![0, Complex.I, 2 * Complex.I] := by
  have hmu := eig_structure (hL _ hDiag_herm) (hasc _ hDiag_herm)
  simp only [decomp, if_true]
  rw [aMat_herm, hmu]
  ext j; fin_cases j <;> simp [mul_comm]

theorem lam_injective : Function.Injective (![0, Complex.I, 2 * Complex.I] : Fin 3 → ℂ) := by
  have hI := Complex.I_ne_zero
  have h2 : (2 : ℂ) * Complex.I ≠ Complex.I := by
    intro h; apply hI; linear_combination h
  intro i j hij
  fin_cases i <;> fin_cases j <;> simp_all [eq_comm]

theorem spectral_value (L : Lapack (Fin 3)) (hL : L.EighOk)
    (hasc : ∀ H : Matrix (Fin 3) (Fin 3) ℂ, H.IsHermitian → Monotone (L.eigh H).1) :
    dexpFormula (decomp L aMat true).1 (decomp L aMat true).2 Real.pi ((-Complex.I) • dMat) = threeG ∧
      NormedSpace.exp ((Real.pi : ℂ) • aMat) = threeU := by
  have h := decomp_skew hL aMat_skew
  have hlam := aMat_lam L hL hasc
  have hent : ∀ i j, aMat i i * (decomp L aMat true).2 i j = (decomp L aMat true).2 i j * (decomp L aMat true).1 j := by
    intro i j
    have := congrFun (congrFun h.2 i) j
    rw [Matrix.diagonal_mul, Matrix.mul_diagonal] at this
    simpa using this
  have hV := conjTranspose_mul_unitary h.1
  have hE1 : Complex.exp ((Real.pi : ℂ) * Complex.I) = -1 := Complex.exp_pi_mul_I
  have hE2 : Complex.exp ((Real.pi : ℂ) * (2 * Complex.I)) = 1 := by
    rw [show (Real.pi : ℂ) * (2 * Complex.I) = 2 * Real.pi * Complex.I by ring, Complex.exp_two_pi_mul_I]
  have hE2' : Complex.exp ((Real.pi : ℂ) * (Complex.I * 2)) = 1 := by rw [mul_comm Complex.I]; exact hE2
  refine ⟨?_, ?_⟩
  · generalize (decomp L aMat true).2 = V at *
    rw [hlam] at hent ⊢
    clear hlam h hL hasc
    have hI := Complex.I_ne_zero
    have hz : ∀ i j, aMat i i ≠ (![0, Complex.I, 2 * Complex.I] : Fin 3 → ℂ) j → V i j = 0 := by
      intro i j hne
      have : (aMat i i - (![0, Complex.I, 2 * Complex.I] : Fin 3 → ℂ) j) * V i j = 0 := by
        linear_combination hent i j
      exact (mul_eq_zero.mp this).resolve_left (sub_ne_zero.mpr hne)
    have h2' : Complex.I * 2 ≠ Complex.I := by
      intro h; apply hI; linear_combination h
    have z00 : V 0 0 = 0 := hz 0 0 (by simp [aMat, hDiag])
    have z20 : V 2 0 = 0 := hz 2 0 (by simp [aMat, hDiag])
    have z01 : V 0 1 = 0 := hz 0 1 (by simpa [aMat, hDiag] using h2')
    have z11 : V 1 1 = 0 := hz 1 1 (by simp [aMat, hDiag, eq_comm])
    have z12 : V 1 2 = 0 := hz 1 2 (by simp [aMat, hDiag, eq_comm])
    have z22 : V 2 2 = 0 := hz 2 2 (by simp [aMat, hDiag])
    have o00 := congrFun (congrFun hV 0) 0
    have o11 := congrFun (congrFun hV 1) 1
    have o22 := congrFun (congrFun hV 2) 2
    simp only [Matrix.mul_apply, Fin.sum_univ_three, Matrix.conjTranspose_apply, z00, z20, z01, z11, z12, z22,
      Matrix.one_apply_eq, star_zero, mul_zero, zero_add, add_zero] at o00 o11 o22
    have hw12 : omega (![0, Complex.I, 2 * Complex.I] : Fin 3 → ℂ) Real.pi 1 2 = 2 * Complex.I := by
      simp only [omega, Matrix.of_apply]
      rw [if_neg (by decide)]
      have : ((![0, Complex.I, 2 * Complex.I] : Fin 3 → ℂ) 2 - (![0, Complex.I, 2 * Complex.I] : Fin 3 → ℂ) 1) = Complex.I := by
        simp; ring
      rw [this, mul_comm Complex.I, Complex.exp_pi_mul_I, div_eq_iff hI]
      have := Complex.I_mul_I
      linear_combination (-2) * this
    have hw21 : omega (![0, Complex.I, 2 * Complex.I] : Fin 3 → ℂ) Real.pi 2 1 = -(2 * Complex.I) := by
      simp only [omega, Matrix.of_apply]
      rw [if_neg (by decide)]
      have : ((![0, Complex.I, 2 * Complex.I] : Fin 3 → ℂ) 1 - (![0, Complex.I, 2 * Complex.I] : Fin 3 → ℂ) 2) = -Complex.I := by
        simp; ring
      rw [this, neg_mul, mul_comm Complex.I, Complex.exp_neg, Complex.exp_pi_mul_I, div_eq_iff (neg_ne_zero.mpr hI)]
      have := Complex.I_mul_I
      rw [inv_neg, inv_one]
      linear_combination (-2) * this
    have p00 : V 1 0 * star (V 1 0) = 1 := by rw [mul_comm]; exact o00
    have p11 : V 2 1 * star (V 2 1) = 1 := by rw [mul_comm]; exact o11
    have p22 : V 0 2 * star (V 0 2) = 1 := by rw [mul_comm]; exact o22
    obtain ⟨a, ha⟩ : ∃ a, V 1 0 = a := ⟨_, rfl⟩
    obtain ⟨b, hb⟩ : ∃ b, V 2 1 = b := ⟨_, rfl⟩
    obtain ⟨c, hc⟩ : ∃ c, V 0 2 = c := ⟨_, rfl⟩
    rw [ha] at p00; rw [hb] at p11; rw [hc] at p22
    have hVe : V = !![0, 0, c; a, 0, 0; 0, b, 0] := by
      ext i j; fin_cases i <;> fin_cases j <;> simp [z00, z20, z01, z11, z12, z22, ha, hb, hc]
    have hVs : (!![0, 0, c; a, 0, 0; 0, b, 0] : Matrix (Fin 3) (Fin 3) ℂ)ᴴ = !![0, star a, 0; 0, 0, star b; star c, 0, 0] := by
      ext i j; fin_cases i <;> fin_cases j <;> simp [Matrix.conjTranspose_apply]
    have t1 : V * ((-Complex.I) • dMat) * Vᴴ =
        !![0, 0, 0; 0, 0, -Complex.I * (a * star b); 0, -Complex.I * (b * star a), 0] := by
      rw [hVe, hVs]
      ext i j; fin_cases i <;> fin_cases j <;> simp [Matrix.mul_apply, Fin.sum_univ_three, dMat] <;> ring
    have t2 : (Matrix.of fun i j => (V * ((-Complex.I) • dMat) * Vᴴ) i j * omega (![0, Complex.I, 2 * Complex.I] : Fin 3 → ℂ) Real.pi i j) =
        !![0, 0, 0; 0, 0, 2 * (a * star b); 0, -2 * (b * star a), 0] := by
      rw [t1]
      ext i j
      have := Complex.I_mul_I
      simp only [Complex.star_def] at *
      fin_cases i <;> fin_cases j <;> simp [hw12, hw21]
      · linear_combination (-2 * (a * (starRingEnd ℂ) b)) * this
      · linear_combination (2 * (b * (starRingEnd ℂ) a)) * this
    have t3 : Vᴴ * (!![0, 0, 0; 0, 0, 2 * (a * star b); 0, -2 * (b * star a), 0] : Matrix (Fin 3) (Fin 3) ℂ) * V = threeG := by
      rw [hVe, hVs]
      simp only [Complex.star_def] at *
      ext i j
      fin_cases i <;> fin_cases j <;> simp [Matrix.mul_apply, Fin.sum_univ_three, threeG]
      · linear_combination (2 * (b * (starRingEnd ℂ) b)) * p00 + 2 * p11
      · linear_combination (2 * (b * (starRingEnd ℂ) b)) * p00 + 2 * p11
    have t4 : V * Matrix.diagonal (fun j => Complex.exp ((Real.pi : ℂ) * (![0, Complex.I, 2 * Complex.I] : Fin 3 → ℂ) j)) * Vᴴ = threeU := by
      have hexp : (fun j => Complex.exp ((Real.pi : ℂ) * (![0, Complex.I, 2 * Complex.I] : Fin 3 → ℂ) j)) = ![1, -1, 1] := by
        ext j; fin_cases j <;> simp [hE1, hE2]
      rw [hexp, hVe, hVs]
      simp only [Complex.star_def] at *
      ext i j
      rw [Matrix.mul_apply]
      simp only [Matrix.mul_diagonal, Fin.sum_univ_three]
      fin_cases i <;> fin_cases j <;> simp [threeU, p00, p11, p22]
    unfold dexpFormula
    simp only
    rw [t2, t3, t4]
    ext i j; fin_cases i <;> fin_cases j <;> simp [threeU, threeG, Matrix.mul_apply, Fin.sum_univ_three]
  · rw [show aMat = Matrix.diagonal fun i => Complex.I * hDiag i from rfl, ← Matrix.diagonal_smul, Matrix.exp_diagonal]
    ext i j
    fin_cases i <;> fin_cases j <;> simp [threeU, Pi.coe_exp, ← Complex.exp_eq_exp_ℂ, hE1, hE2']

theorem omega_three01 : omega (fun i => Complex.I * hDiag i) Real.pi 0 1 = 0 := by
  simp only [omega, Matrix.of_apply]
  rw [if_neg (by decide)]
  have : (Complex.I * hDiag 1 - Complex.I * hDiag 0) * (Real.pi : ℂ) = -(2 * Real.pi * Complex.I) := by
    simp [hDiag]; ring
  rw [this, Complex.exp_neg, Complex.exp_two_pi_mul_I]
  simp

theorem omega_three10 : omega (fun i => Complex.I * hDiag i) Real.pi 1 0 = 0 := by
  simp only [omega, Matrix.of_apply]
  rw [if_neg (by decide)]
  have : (Complex.I * hDiag 0 - Complex.I * hDiag 1) * (Real.pi : ℂ) = 2 * Real.pi * Complex.I := by
    simp [hDiag]; ring
  rw [this, Complex.exp_two_pi_mul_I]
  simp

theorem trace_threeU : (threeU * threeTᴴ).trace = 11 / 5 := by
  simp only [Matrix.trace, Matrix.diag, Matrix.mul_apply, Matrix.conjTranspose_apply, Fin.sum_univ_three]
  simp [threeU, threeT, Complex.conj_ofNat]
  norm_num

theorem trace_threeG : (threeG * threeTᴴ).trace = 16 / 5 := by
  simp only [Matrix.trace, Matrix.diag, Matrix.mul_apply, Matrix.conjTranspose_apply, Fin.sum_univ_three]
  simp [threeG, threeT, Complex.conj_ofNat]
  norm_num

theorem dim_three : dim (none : Option (List (Fin 3))) = 3 := by
  show ((Fintype.card (Fin 3) : ℕ) : ℝ) = 3
  simp

variable {n : Type} [Fintype n] [DecidableEq n]

theorem opCosts_last (cl : Closest) (cs : Option (List n)) (T : Matrix (CompIdx cs) (CompIdx cs) ℂ) (mcu : Bool)
    {f : List (Matrix n n ℂ)} {X : Matrix n n ℂ} (h : f.getLast? = some X) : opCosts cl cs T mcu f = .ok (1 - entFid cl cs T X mcu) := by
  unfold opCosts
  rw [last_ok h]; rfl

/-! ## Properties -/

/-- **C168**, part that holds: the gradient is the derivative at pulses for which `eigh` returns distinct eigenvalues and a Hermitian matrix of
eigenvectors in every time step. -/
theorem c168_partial (p : SPar n n) (τ : List ℝ) (hv : p.Valid τ) (hst : Stable p.cfg)
    (hmeth : p.method = .spectral) (hsk : p.skew = true) (happ : p.approx = .none) (hL : p.L.EighOk) (hne : p.xTimes τ ≠ [])
    (hdH : ∀ H ∈ p.drift, H.IsHermitian) (hcH : ∀ H ∈ p.ctrl, H.IsHermitian)
    (cl : Closest) (cs : Option (List n)) (hcs : cs ≠ some []) (mcu : Bool) (hm : mcu = false ∨ cs = none)
    (T : Matrix (CompIdx cs) (CompIdx cs) ℂ) (y u : Solver.Pulse) (hy : ampsOf p.cfg τ y = some u)
    (hV : ∀ t < (p.xTimes τ).length, Function.Injective (p.L.eigh (-hamAt p u t)).1 ∧ ((p.L.eigh (-hamAt p u t)).2)ᴴ = (p.L.eigh (-hamAt p u t)).2) :
    ∃ g, (gradOn (fun tr => opGrad cl cs T mcu tr.fwd tr.dP tr.rev) p.cfg (fresh p.cfg τ y)).1 = .ok g ∧
      Rect g (p.xTimes τ).length p.ctrl.length ∧
      ∀ t c, t < (p.xTimes τ).length → c < p.ctrl.length →
        ∀ Y : ℝ → Solver.Pulse, (∀ x, ampsOf p.cfg τ (Y x) = some (Solver.bump u t c x)) →
          ∃ (G : ℝ) (cost : ℝ → ℝ), Cost.entry g t c = some G ∧
            (∀ x, (costOn (opCosts cl cs T mcu) p.cfg (fresh p.cfg τ (Y x))).1 = .ok (cost x)) ∧ HasDerivAt cost G 0 := by
  have hnc : 0 < p.ctrl.length := List.length_pos_iff.mpr hv.1
  have hps : p.steps τ u ≠ [] := by
    intro h0
    apply hne
    have := steps_length p τ u
    rw [h0] at this
    exact List.length_eq_zero_iff.mp this.symm
  have hneg : ∀ t, (-Complex.I) • (-Complex.I) • hamAt p u t = -hamAt p u t := fun t => by rw [smul_smul]; simp
  have hinj : ∀ t < (p.xTimes τ).length, Function.Injective (decomp p.L ((-Complex.I) • hamAt p u t) true).1 := by
    intro t ht i j hij
    simp only [decomp, if_true, hneg] at hij
    exact (hV t ht).1 (Complex.ofReal_injective (mul_left_cancel₀ Complex.I_ne_zero hij))
  obtain ⟨tr, s', e1, hOf, hD, -⟩ := (ready_fresh p τ y u hy).traceSpectral hv hst hmeth hsk happ hne hinj
  obtain ⟨g, hg, hR, hder⟩ := c44_gradient cl cs hcs mcu hm T p.init _ hps _ hnc tr hOf
  refine ⟨g, ?_, by rwa [steps_length] at hR, fun t c ht hc Y hY => ?_⟩
  · unfold gradOn; rw [e1]; exact hg
  obtain ⟨hul, hrow⟩ := ampsOf_shape p.cfg τ y u hy
  choose f s1 h1 h2 h3 using fun x => (ready_fresh p τ (Y x) _ (hY x)).fwd hv hst
  have h8 : t < u.length := by rw [hul]; exact ht
  have hbt : ∀ x, (Solver.bump u t c x).getD t [] = u[t].modify c (· + x) := by
    intro x
    simp [Solver.bump, List.getD_eq_getElem?_getD, List.getElem?_modify, List.getElem?_eq_getElem h8]
  have hb : ∀ x t', t' ≠ t → (Solver.bump u t c x).getD t' [] = u.getD t' [] := by
    intro x t' h
    simp [Solver.bump, List.getD_eq_getElem?_getD, List.getElem?_modify, Ne.symm h]
  have hsw : Sweep p.init (p.steps τ u) t (fun x => p.step τ (Solver.bump u t c x) t) (spectralDeriv p τ u t c) f := by
    refine ⟨fun x => ?_, ?_, ?_⟩
    · have : (p.steps τ u).set t (p.step τ (Solver.bump u t c x) t) = p.steps τ (Solver.bump u t c x) := by
        refine List.ext_getElem (by simp [SPar.steps]) fun i h3 h4 => ?_
        rw [List.getElem_set]
        by_cases e : t = i
        · subst e
          simp [SPar.steps]
        · rw [if_neg e]
          simp only [SPar.steps, List.getElem_map, List.getElem_range, SPar.step, hb x i (Ne.symm e)]
      rw [this]
      exact h2 x
    · rw [bump_zero]
      simp [SPar.steps, List.getElem?_range ht]
    · obtain ⟨q, g', k1, k2⟩ := c21_derivative_partial p.L hL ((-Complex.I) • hamAt p u t) ((-Complex.I) • p.ctrl.getD c 0)
        (skew_of_hermitian (hamAt_hermitian p hdH hcH u t)) (((p.xTimes τ).getD t 0 : ℝ) : ℂ) (by rw [hneg]; exact (hV t ht).1)
        (by rw [hneg]; exact (hV t ht).2) true 0
      have k3 : g' = spectralDeriv p τ u t c := by
        simp only [dexp, dexpDiagonalization, if_pos (hinj t ht), Except.ok.injEq, DexpResult.mk.injEq, Option.some.injEq] at k1
        exact k1.2.symm
      rw [k3] at k2
      refine k2.congr (fun x => ?_) rfl
      rw [step_spectral p hmeth hsk hL hdH hcH]
      congr 2
      unfold hamAt
      rw [hbt, hamiltonian_bump _ _ _ c x p.ctrl[c] (by rw [hrow _ (List.getElem_mem h8)]; exact hc) (List.getElem?_eq_getElem hc),
        List.getD_eq_getElem _ _ h8, List.getD_eq_getElem _ _ hc, smul_add, smul_comm]
  obtain ⟨G, cost, k1, k2, -, k4⟩ := hder t c _ _ f hsw (hD t c ht hc)
  refine ⟨G, cost, k1, fun x => ?_, k4⟩
  unfold costOn; rw [h1 x]; exact k2 x

/-- **C168** is violated: the propagator of `threeLevel` does not depend on the amplitude in first order and neither does the infidelity, but
`OperationInfidelity.grad` returns `-352/225`, whatever eigenvectors `eigh` returns (with the eigenvalues in ascending order, as documented by
numpy). -/
theorem c168_violated (L : Lapack (Fin 3)) (hL : L.EighOk)
    (hasc : ∀ H : Matrix (Fin 3) (Fin 3) ℂ, H.IsHermitian → Monotone (L.eigh H).1) (cd : Bool) (cl : Closest) (mcu : Bool) :
    ∃ (g : List (List ℝ)) (cost : ℝ → ℝ),
      (gradOn (fun tr => opGrad cl none threeT mcu tr.fwd tr.dP tr.rev) (threeLevel L cd).cfg
        (fresh (threeLevel L cd).cfg [Real.pi] [[0]])).1 = .ok g ∧ Cost.entry g 0 0 = some (-(352 / 225)) ∧
      (∀ x, (costOn (opCosts cl none threeT mcu) (threeLevel L cd).cfg (fresh (threeLevel L cd).cfg [Real.pi] [[x]])).1 = .ok (cost x)) ∧
      HasDerivAt cost 0 0 := by
  have hv : (threeLevel L cd).Valid [Real.pi] := ⟨by simp [threeLevel], rfl, by simp [threeLevel]⟩
  have hst : Stable (threeLevel L cd).cfg := by
    cases cd
    · refine Or.inr (Or.inl ⟨rfl, Or.inl rfl, fun times u t Ds h => ?_⟩)
      rintro rfl
      have h' : (List.replicate times.length ((threeLevel L false).ctrl.map fun H => (-Complex.I) • H))[t]? = some [] := h
      rw [List.getElem?_replicate] at h'
      split at h'
      · simp [threeLevel] at h'
      · simp at h'
    · exact Or.inl ⟨rfl, rfl⟩
  have hdH : ∀ H ∈ (threeLevel L cd).drift, H.IsHermitian := by
    intro H hH
    obtain rfl : H = -Matrix.diagonal hDiag := by simpa [threeLevel] using hH
    exact hDiag_herm.neg
  have hcH : ∀ H ∈ (threeLevel L cd).ctrl, H.IsHermitian := by
    intro H hH
    obtain rfl : H = dMat := by simpa [threeLevel] using hH
    exact dMat_herm
  have hgen0 : (-Complex.I) • hamAt (threeLevel L cd) [[0]] 0 = aMat := by
    have := threeLevel_gen L cd 0
    simpa using this
  have hlen : ((threeLevel L cd).xTimes [Real.pi]).length = 1 := rfl
  have hinj : ∀ t < ((threeLevel L cd).xTimes [Real.pi]).length,
      Function.Injective (decomp (threeLevel L cd).L ((-Complex.I) • hamAt (threeLevel L cd) [[0]] t) true).1 := by
    intro t ht
    obtain rfl : t = 0 := by omega
    rw [hgen0]
    have : (decomp (threeLevel L cd).L aMat true).1 = _ := aMat_lam L hL hasc
    rw [this]
    exact lam_injective
  obtain ⟨hval, hU⟩ := spectral_value L hL hasc
  have hstep : ∀ x : ℝ, (threeLevel L cd).step [Real.pi] [[x]] 0 =
      NormedSpace.exp ((Real.pi : ℂ) • (aMat + (x : ℂ) • ((-Complex.I) • dMat))) := by
    intro x
    have h := step_spectral (threeLevel L cd) rfl rfl hL hdH hcH [Real.pi] [[x]] 0
    rw [threeLevel_gen] at h
    exact h
  have hstep0 : (threeLevel L cd).step [Real.pi] [[0]] 0 = threeU := by
    rw [hstep 0, ← hU]; simp
  have hsteps : ∀ x : ℝ, (threeLevel L cd).steps [Real.pi] [[x]] = [(threeLevel L cd).step [Real.pi] [[x]] 0] := fun x => rfl
  obtain ⟨tr, s', e1, hOf, hD, -⟩ := (ready_fresh (threeLevel L cd) [Real.pi] [[0]] [[0]] (threeLevel_amps L cd 0)).traceSpectral hv hst rfl rfl rfl
    (List.cons_ne_nil _ _) hinj
  obtain ⟨g, hg, -, hder⟩ := c44_gradient (n := Fin 3) cl none (by simp) mcu (Or.inr rfl) threeT (threeLevel L cd).init
    ((threeLevel L cd).steps [Real.pi] [[0]]) (by rw [hsteps]; simp) (threeLevel L cd).ctrl.length (by simp [threeLevel]) tr hOf
  have hd0 : tr.derivAt 0 0 = some threeG := by
    rw [hD 0 0 (by simp [threeLevel]) (by simp [threeLevel])]
    unfold spectralDeriv
    rw [hgen0]
    exact congrArg some hval
  -- the value returned, from the derivative along a line with that slope
  have hline : MatDeriv (fun x : ℝ => threeU + (x : ℂ) • threeG) threeG 0 := by
    intro i j
    have h1 : HasDerivAt (fun x : ℝ => (x : ℂ)) 1 0 := Complex.ofRealCLM.hasDerivAt
    have := (h1.mul_const (threeG i j)).const_add (threeU i j)
    simpa using this
  have hsw : Sweep (threeLevel L cd).init ((threeLevel L cd).steps [Real.pi] [[0]]) 0 (fun x : ℝ => threeU + (x : ℂ) • threeG) threeG
      (fun x => [1, threeU + (x : ℂ) • threeG]) := by
    refine ⟨fun x => ⟨by simp [hsteps], by simp [threeLevel], fun i hi => ?_⟩, by simp [hsteps, hstep0], hline⟩
    obtain rfl : i = 0 := by simpa [hsteps] using hi
    exact ⟨1, rfl, by simp [hsteps]⟩
  obtain ⟨G, cost', k1, k2, -, k4⟩ := hder 0 0 _ _ _ hsw hd0
  have hG : G = -(352 / 225) := by
    have h1 := (entFid_deriv cl none mcu (Or.inr rfl) threeT hline).const_sub 1
    have h2 : cost' = fun x : ℝ => 1 - entFid cl none threeT (threeU + (x : ℂ) • threeG) mcu := by
      funext x
      exact Except.ok.inj ((k2 x).symm.trans (opCosts_last cl none threeT mcu (X := threeU + (x : ℂ) • threeG) rfl))
    rw [h2] at k4
    rw [k4.unique h1]
    have h3 : (threeU + ((0 : ℝ) : ℂ) • threeG) = threeU := by simp
    rw [h3, dim_three]
    show -(2 / 3 / 3 * (star (threeU * threeTᴴ).trace * (threeG * threeTᴴ).trace).re) = _
    rw [trace_threeU, trace_threeG]
    norm_num [Complex.ext_iff]
  choose f s1 h1 h2 h3 using fun x => (ready_fresh (threeLevel L cd) [Real.pi] [[x]] [[x]] (threeLevel_amps L cd x)).fwd hv hst
  have hfin : ∀ x, (f x).getLast? = some ((threeLevel L cd).step [Real.pi] [[x]] 0) := by
    intro x
    obtain ⟨l1, l2, l3⟩ := h2 x
    obtain ⟨F, m1, m2⟩ := l3 0 (by simp [hsteps])
    rw [l2] at m1
    have hF : F = 1 := (Option.some.inj m1).symm
    rw [List.getLast?_eq_getElem?, l1]
    simpa [hsteps, hF] using m2
  refine ⟨g, fun x => 1 - entFid cl none threeT ((threeLevel L cd).step [Real.pi] [[x]] 0) mcu, ?_, by rw [k1, hG], fun x => ?_, ?_⟩
  · unfold gradOn; rw [e1]; exact hg
  · unfold costOn; rw [h1 x]
    exact opCosts_last cl none threeT mcu (hfin x)
  · have hdU : MatDeriv (fun x : ℝ => (threeLevel L cd).step [Real.pi] [[x]] 0) 0 0 := by
      refine (c21_corrected_formula (A := aMat) (V := 1) (lam := fun i => Complex.I * hDiag i) ⟨Submonoid.one_mem _, by simp [aMat]⟩ ?_
        Real.pi ((-Complex.I) • dMat)).congr (fun x => (hstep x).symm) ?_
      · intro i j hij
        have hij' : hDiag i = hDiag j := mul_left_cancel₀ Complex.I_ne_zero hij
        clear hij
        fin_cases i <;> fin_cases j <;> simp_all [hDiag]
      · have hz : (Matrix.of fun i j => ((1 : Matrix (Fin 3) (Fin 3) ℂ)ᴴ * ((-Complex.I) • dMat) * 1 : Matrix (Fin 3) (Fin 3) ℂ) i j *
            omega (fun i => Complex.I * hDiag i) Real.pi i j) = 0 := by
          ext i j
          fin_cases i <;> fin_cases j <;> simp [dMat, omega_three01, omega_three10]
        rw [hz]
        simp
    have := (entFid_deriv cl none mcu (Or.inr rfl) threeT hdU).const_sub 1
    refine this.congr_deriv ?_
    show -(2 / dim (none : Option (List (Fin 3))) / dim (none : Option (List (Fin 3))) * (star (_ : ℂ) * ((0 : Matrix (Fin 3) (Fin 3) ℂ) * threeTᴴ).trace).re) = _
    simp

/-! ## Examples -/

/-- Routines returning the eigenvalues in ascending order exist. -/
theorem sorted_exists (k : Nat) : ∃ L : Lapack (Fin k), L.EighOk ∧ ∀ H : Matrix (Fin k) (Fin k) ℂ, H.IsHermitian → Monotone (L.eigh H).1 := by
  obtain ⟨L, hL⟩ := eighOk_exists (Fin k)
  refine ⟨{ L with eigh := fun H => ((L.eigh H).1 ∘ Tuple.sort (L.eigh H).1, (L.eigh H).2.submatrix id (Tuple.sort (L.eigh H).1)) },
    fun H h => ?_, fun H h => Tuple.monotone_sort _⟩
  obtain ⟨h1, h2⟩ := hL H h
  refine ⟨?_, ?_⟩
  · rw [Matrix.mem_unitaryGroup_iff] at h1 ⊢
    show (L.eigh H).2.submatrix id (Tuple.sort (L.eigh H).1) * ((L.eigh H).2.submatrix id (Tuple.sort (L.eigh H).1))ᴴ = 1
    rw [Matrix.conjTranspose_submatrix, Matrix.submatrix_mul_equiv]
    simpa [Matrix.star_eq_conjTranspose] using h1
  · show H * (L.eigh H).2.submatrix id (Tuple.sort (L.eigh H).1) = (L.eigh H).2.submatrix id (Tuple.sort (L.eigh H).1) *
      Matrix.diagonal fun j => (((L.eigh H).1 (Tuple.sort (L.eigh H).1 j) : ℝ) : ℂ)
    ext i j
    have := congrFun (congrFun h2 i) (Tuple.sort (L.eigh H).1 j)
    rw [Matrix.mul_diagonal] at this ⊢
    exact this

/-- `c168_violated` applies. -/
example : ∃ L : Lapack (Fin 3), ∃ (g : List (List ℝ)) (cost : ℝ → ℝ),
    (gradOn (fun tr => opGrad (fun _ A => A) none threeT false tr.fwd tr.dP tr.rev) (threeLevel L true).cfg
      (fresh (threeLevel L true).cfg [Real.pi] [[0]])).1 = .ok g ∧ Cost.entry g 0 0 = some (-(352 / 225)) ∧
    (∀ x, (costOn (opCosts (fun _ A => A) none threeT false) (threeLevel L true).cfg
      (fresh (threeLevel L true).cfg [Real.pi] [[x]])).1 = .ok (cost x)) ∧ HasDerivAt cost 0 0 := by
  obtain ⟨L, h1, h2⟩ := sorted_exists 3
  exact ⟨L, c168_violated L h1 h2 true _ _⟩

namespace Ex168

/-- The drift Hamiltonian of the qubit below. -/
noncomputable def H : Matrix (Fin 2) (Fin 2) ℂ := !![-(7 / 25), -(24 / 25); -(24 / 25), 7 / 25]

/-- `eigh` returning a reflection for `-H`. -/
theorem reflecting : ∃ L : Lapack (Fin 2), L.EighOk ∧ (L.eigh (-H)).1 = ![1, -1] ∧ (L.eigh (-H)).2 = !![4 / 5, 3 / 5; 3 / 5, -(4 / 5)] := by
  classical
  obtain ⟨L, hL⟩ := eighOk_exists (Fin 2)
  refine ⟨{ L with eigh := fun A => if A = -H then (![1, -1], !![4 / 5, 3 / 5; 3 / 5, -(4 / 5)]) else L.eigh A }, fun A hA => ?_, ?_, ?_⟩
  · by_cases e : A = -H
    · subst e
      simp only [if_true]
      refine ⟨?_, ?_⟩
      · rw [Matrix.mem_unitaryGroup_iff]
        ext i j; fin_cases i <;> fin_cases j <;>
          simp [Matrix.mul_apply, Fin.sum_univ_two, Matrix.star_eq_conjTranspose, Matrix.conjTranspose_apply, Complex.conj_ofNat] <;> norm_num
      · ext i j; fin_cases i <;> fin_cases j <;> simp [H, Matrix.mul_apply, Fin.sum_univ_two] <;> norm_num
    · simp only [if_neg e]
      exact hL A hA
  · simp
  · simp

/-- `c168_partial` applies: a qubit with drift `H` and two controls, at amplitudes 0. -/
example : ∃ L : Lapack (Fin 2), ∃ g, (gradOn (fun tr => opGrad (fun _ A => A) none (!![0, 1; 1, 0] : Matrix (Fin 2) (Fin 2) ℂ) false tr.fwd tr.dP tr.rev)
      (⟨L, .spectral, true, true, .none, 1, [H], [!![0, 1; 1, 0], !![1, 0; 0, -1]], idTf, id, idAmp⟩ : SPar (Fin 2) (Fin 2)).cfg
      (fresh (⟨L, .spectral, true, true, .none, 1, [H], [!![0, 1; 1, 0], !![1, 0; 0, -1]], idTf, id, idAmp⟩ : SPar (Fin 2) (Fin 2)).cfg
        [2] [[0, 0]])).1 = .ok g ∧ ∃ G cost, entry g 0 1 = some G ∧
      (∀ x, (costOn (opCosts (fun _ A => A) none (!![0, 1; 1, 0] : Matrix (Fin 2) (Fin 2) ℂ) false)
        (⟨L, .spectral, true, true, .none, 1, [H], [!![0, 1; 1, 0], !![1, 0; 0, -1]], idTf, id, idAmp⟩ : SPar (Fin 2) (Fin 2)).cfg
        (fresh (⟨L, .spectral, true, true, .none, 1, [H], [!![0, 1; 1, 0], !![1, 0; 0, -1]], idTf, id, idAmp⟩ : SPar (Fin 2) (Fin 2)).cfg
          [2] [[0, x]])).1 = .ok (cost x)) ∧ HasDerivAt cost G 0 := by
  obtain ⟨L, hL, h1, h2⟩ := reflecting
  refine ⟨L, ?_⟩
  have ham : ∀ y : Solver.Pulse, y.length = 1 → (∀ row ∈ y, row.length = 2) →
      ampsOf (⟨L, .spectral, true, true, .none, 1, [H], [!![0, 1; 1, 0], !![1, 0; 0, -1]], idTf, id, idAmp⟩ : SPar (Fin 2) (Fin 2)).cfg [2] y = some y :=
    fun y hl hr => ampsOf_simple L .spectral true .none 1 [H] [!![0, 1; 1, 0], !![1, 0; 0, -1]] [2] y (by rintro rfl; simp at hl) hl hr
  generalize hp : (⟨L, .spectral, true, true, .none, 1, [H], [!![0, 1; 1, 0], !![1, 0; 0, -1]], idTf, id, idAmp⟩ : SPar (Fin 2) (Fin 2)) = p at *
  have e0 : hamAt p [[0, 0]] 0 = H := by subst hp; simp [hamAt, hamiltonian]
  obtain ⟨g, k1, -, k3⟩ := c168_partial p [2] (by subst hp; exact ⟨by simp, rfl, by simp⟩) (by subst hp; exact Or.inl ⟨rfl, rfl⟩)
    (by subst hp; rfl) (by subst hp; rfl) (by subst hp; rfl) (by subst hp; exact hL) (by subst hp; simp)
    (by
      subst hp
      simp only [List.mem_singleton, forall_eq]
      ext i j; fin_cases i <;> fin_cases j <;> simp [H, Complex.conj_ofNat])
    (by
      subst hp
      simp only [List.mem_cons, List.not_mem_nil, or_false, forall_eq_or_imp, forall_eq]
      refine ⟨?_, ?_⟩ <;> (ext i j; fin_cases i <;> fin_cases j <;> simp))
    (fun _ A => A) none (by simp) false (Or.inl rfl) (!![0, 1; 1, 0] : Matrix (Fin 2) (Fin 2) ℂ) [[0, 0]] [[0, 0]] (ham _ rfl (by simp))
    (by
      intro t ht
      obtain rfl : t = 0 := by subst hp; simpa using ht
      rw [e0]
      have hLp : p.L = L := by subst hp; rfl
      rw [hLp, h1, h2]
      refine ⟨?_, ?_⟩
      · intro i j hij
        fin_cases i <;> fin_cases j <;> first | rfl | (exfalso; norm_num at hij)
      · ext i j; fin_cases i <;> fin_cases j <;> simp [Matrix.conjTranspose_apply, Complex.conj_ofNat])
  obtain ⟨G, cost, m1, m2, m3⟩ := k3 0 1 (by subst hp; simp) (by subst hp; simp) (fun x => [[0, x]])
    fun x => by rw [ham _ rfl (by simp)]; simp [Solver.bump]
  exact ⟨g, k1, G, cost, m1, m2, m3⟩

end Ex168

end Verif.Cost
