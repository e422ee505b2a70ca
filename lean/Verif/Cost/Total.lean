import Verif.Cost.State
import Mathlib.Analysis.Analytic.Basic
import Mathlib.Analysis.Calculus.FDeriv.Analytic
import Mathlib.Analysis.Calculus.FDeriv.Pi
import Mathlib.Analysis.Calculus.FDeriv.Star

/-!
# Total derivatives with respect to all control amplitudes

The cost functions compute one number per time step and control.  Here these numbers are shown to be the total derivative
of the cost as a function of the whole array of amplitudes, so that they may be used in a chain rule.
-/

namespace Verif.Cost
open Verif Verif.Operator Verif.Solver Matrix

section
variable {E : Type} [NormedAddCommGroup E] [NormedSpace ℝ E]
variable {a b c' : Type} [Fintype a] [Fintype b] [Fintype c']

/-- Specification: every entry of a matrix is a differentiable function of the variables. -/
def MatDiff (F : E → Matrix a b ℂ) : Prop := ∀ i j, Differentiable ℝ fun x => F x i j

theorem MatDiff.const (A : Matrix a b ℂ) : MatDiff fun _ : E => A := fun i j => differentiable_const (A i j)

theorem MatDiff.mul {F : E → Matrix a b ℂ} {G : E → Matrix b c' ℂ} (hF : MatDiff F) (hG : MatDiff G) :
    MatDiff fun x => F x * G x := by
  intro i j
  simp only [Matrix.mul_apply]
  exact Differentiable.fun_sum fun k _ => (hF i k).mul (hG k j)

theorem MatDiff.trace {F : E → Matrix a a ℂ} (hF : MatDiff F) : Differentiable ℝ fun x => (F x).trace := by
  simp only [Matrix.trace, Matrix.diag]
  exact Differentiable.fun_sum fun k _ => hF k k

theorem differentiable_norm_sq {f : E → ℂ} (hf : Differentiable ℝ f) : Differentiable ℝ fun x => ‖f x‖ ^ 2 := by
  have h : (fun x => ‖f x‖ ^ 2) = fun x => Complex.reCLM (star (f x) * f x) := by
    funext x
    rw [← Complex.normSq_eq_norm_sq, Complex.reCLM_apply, Complex.star_def, ← Complex.normSq_eq_conj_mul_self]
    simp
  rw [h]
  exact Complex.reCLM.differentiable.comp (hf.star.mul hf)

open scoped Matrix.Norms.Operator in
theorem MatDiff.exp [DecidableEq a] {G : E → Matrix a a ℂ} (hG : MatDiff G) : MatDiff fun x => NormedSpace.exp (G x) := by
  have h1 : Differentiable ℝ G := by
    have : Differentiable ℝ (fun x => (G x : a → a → ℂ)) :=
      differentiable_pi.mpr fun i => differentiable_pi.mpr fun j => hG i j
    exact this
  have h2 : Differentiable ℝ (NormedSpace.exp : Matrix a a ℂ → Matrix a a ℂ) := fun M =>
    (NormedSpace.exp_analytic (𝕂 := ℝ) M).differentiableAt
  have h3 : Differentiable ℝ fun x => NormedSpace.exp (G x) := h2.comp h1
  have h4 : ∀ i j, Differentiable ℝ fun M : Matrix a a ℂ => M i j := by
    intro i j
    have : Differentiable ℝ fun M : a → a → ℂ => M i j :=
      differentiable_pi.mp (differentiable_pi.mp differentiable_id i) j
    exact this
  exact fun i j => (h4 i j).comp h3

end

section
variable {n m : Type} [Fintype n] [DecidableEq n] [Fintype m]

/-- An array of amplitudes as the list of its rows. -/
def rowsOf {N c : Nat} (U : Fin N → Fin c → ℝ) : Pulse := List.ofFn fun t => List.ofFn (U t)

theorem rowsOf_shape {N c : Nat} (U : Fin N → Fin c → ℝ) : (rowsOf U).length = N ∧ ∀ row ∈ rowsOf U, row.length = c := by
  refine ⟨by simp [rowsOf], fun row h => ?_⟩
  obtain ⟨t, rfl⟩ := (List.mem_ofFn' _ _).mp h
  simp

theorem rowsOf_get {N c : Nat} (U : Fin N → Fin c → ℝ) (t : Nat) (ht : t < N) : (rowsOf U).getD t [] = List.ofFn (U ⟨t, ht⟩) := by
  rw [List.getD_eq_getElem _ _ (by simpa [rowsOf] using ht)]
  simp [rowsOf]

/-- The array that is one at a single entry. -/
def unitAmp {N c : Nat} (t : Fin N) (k : Fin c) : Fin N → Fin c → ℝ := Pi.single t (Pi.single k 1)

theorem rowsOf_bump {N c : Nat} (U : Fin N → Fin c → ℝ) (t : Fin N) (k : Fin c) (x : ℝ) :
    bump (rowsOf U) t k x = rowsOf (U + x • unitAmp t k) := by
  refine List.ext_getElem (by simp [bump, rowsOf]) fun i h1 h2 => ?_
  have hi : i < N := by simpa [rowsOf] using h2
  refine List.ext_getElem ?_ fun j h3 h4 => ?_
  · simp only [bump, rowsOf, List.getElem_modify, List.getElem_ofFn]
    split <;> simp
  · have hj : j < c := by simpa [rowsOf] using h4
    simp only [bump, rowsOf, List.getElem_modify, List.getElem_ofFn, Pi.add_apply, Pi.smul_apply, smul_eq_mul, unitAmp]
    by_cases e : (t : Nat) = i
    · have e' : t = ⟨i, hi⟩ := Fin.ext e
      subst e'
      by_cases e2 : (k : Nat) = j
      · have e2' : k = ⟨j, hj⟩ := Fin.ext e2
        subst e2'
        simp
      · have e2' : (⟨j, hj⟩ : Fin c) ≠ k := fun h => e2 (by rw [← h])
        simp [e2, e2', List.getElem_modify]
    · have e' : (⟨i, hi⟩ : Fin N) ≠ t := fun h => e (by rw [← h])
      simp [e, Pi.single_eq_of_ne e']

omit [Fintype n] [DecidableEq n] in
theorem hamiltonian_sum (H₀ : Matrix n n ℂ) (ctrl : List (Matrix n n ℂ)) (v : Fin ctrl.length → ℝ) :
    hamiltonian H₀ ctrl (List.ofFn v) = H₀ + ∑ k, (v k : ℂ) • ctrl.get k := by
  unfold hamiltonian
  have : List.zipWith (fun (a : ℝ) H => (a : ℂ) • H) (List.ofFn v) ctrl = List.ofFn fun k => (v k : ℂ) • ctrl.get k := by
    refine List.ext_getElem (by simp) fun i h1 h2 => ?_
    simp
  rw [this, List.sum_ofFn]

/-- Every entry of a propagator is a differentiable function of all amplitudes. -/
theorem step_diff (p : SPar n m) (τ : List ℝ) (hmeth : p.method = .frechet) (hE : p.L.ExpmOk) (t : Nat)
    (ht : t < (p.xTimes τ).length) :
    MatDiff fun U : Fin (p.xTimes τ).length → Fin p.ctrl.length → ℝ => p.step τ (rowsOf U) t := by
  have hpo : ∀ G σ, propOf p.cfg G σ = p.L.expm ((σ : ℂ) • G) := by
    intro G σ
    unfold propOf dexpProp expProp
    have : p.cfg.method = .frechet := hmeth
    rw [this]
    split <;> rfl
  unfold SPar.step
  simp only [hpo, hE _, rowsOf_get _ t ht, hamiltonian_sum]
  refine MatDiff.exp fun i j => ?_
  simp only [Matrix.smul_apply, Matrix.add_apply, Matrix.sum_apply, smul_eq_mul]
  refine Differentiable.const_mul (Differentiable.const_mul (Differentiable.const_add _ (Differentiable.fun_sum fun k _ => ?_)) _) _
  refine Differentiable.mul_const ?_ _
  have h1 : Differentiable ℝ fun U : Fin (p.xTimes τ).length → Fin p.ctrl.length → ℝ => U ⟨t, ht⟩ k :=
    (differentiable_pi.mp (differentiable_pi.mp (differentiable_id (𝕜 := ℝ) (E := Fin (p.xTimes τ).length → Fin p.ctrl.length → ℝ)) ⟨t, ht⟩)) k
  exact Complex.ofRealCLM.differentiable.comp h1

omit [DecidableEq n] in
theorem foldl_diff {E : Type} [NormedAddCommGroup E] [NormedSpace ℝ E] (l : List (E → Matrix n n ℂ)) (h : ∀ P ∈ l, MatDiff P)
    (I : E → Matrix n m ℂ) (hI : MatDiff I) : MatDiff fun U => (l.map fun P => P U).foldl (fun F P => P * F) (I U) := by
  induction l generalizing I with
  | nil => simpa using hI
  | cons P l ih =>
    simp only [List.map_cons, List.foldl_cons]
    exact ih (fun Q hQ => h Q (List.mem_cons_of_mem _ hQ)) (fun U => P U * I U) ((h P List.mem_cons_self).mul hI)

/-- The final propagator for amplitudes `u`. -/
noncomputable def _root_.Verif.Solver.SPar.final (p : SPar n m) (τ : List ℝ) (u : Pulse) : Matrix n m ℂ :=
  (p.steps τ u).foldl (fun F P => P * F) p.init

theorem final_diff (p : SPar n m) (τ : List ℝ) (hmeth : p.method = .frechet) (hE : p.L.ExpmOk) :
    MatDiff fun U : Fin (p.xTimes τ).length → Fin p.ctrl.length → ℝ => p.final τ (rowsOf U) := by
  have := foldl_diff ((List.range (p.xTimes τ).length).map fun t =>
    fun U : Fin (p.xTimes τ).length → Fin p.ctrl.length → ℝ => p.step τ (rowsOf U) t) (by
      intro P hP
      obtain ⟨t, ht, rfl⟩ := List.mem_map.mp hP
      exact step_diff p τ hmeth hE t (List.mem_range.mp ht)) (fun _ => p.init) (MatDiff.const _)
  simpa only [List.map_map, Function.comp_def, SPar.final, SPar.steps] using this

omit [Fintype m] in
theorem final_last {p : SPar n m} {τ : List ℝ} {u : Pulse} {f : List (Matrix n m ℂ)} (h : IsForward p.init (p.steps τ u) f) :
    f.getLast? = some (p.final τ u) := by
  rw [List.getLast?_eq_getElem?, h.1, Nat.add_sub_cancel, isForward_unique h _ le_rfl, List.take_length]
  rfl

/-- A table whose entries are the derivatives along the single amplitudes of a differentiable function is its total
derivative. -/
theorem total_of_entries {N c : Nat} (F : (Fin N → Fin c → ℝ) → ℝ) (hF : Differentiable ℝ F) (U : Fin N → Fin c → ℝ)
    (g : List (List ℝ)) (hR : Rect g N c)
    (h : ∀ (t : Fin N) (k : Fin c), ∃ G, entry g t k = some G ∧ HasDerivAt (fun x : ℝ => F (U + x • unitAmp t k)) G 0) :
    ∃ G : Fin N → Fin c → ℝ, g = rowsOf G ∧ ∃ L : (Fin N → Fin c → ℝ) →L[ℝ] ℝ,
      HasFDerivAt F L U ∧ ∀ V, L V = ∑ t, ∑ k, G t k * V t k := by
  have hL := (hF U).hasFDerivAt
  set L := fderiv ℝ F U with hLdef
  refine ⟨fun t k => L (unitAmp t k), ?_, L, hL, fun V => ?_⟩
  · refine List.ext_getElem (by simp [rowsOf, hR.1]) fun i hi1 hi2 => ?_
    have hi : i < N := by simpa [rowsOf] using hi2
    have hrl := hR.2 g[i] (List.getElem_mem hi1)
    refine List.ext_getElem (by simp [rowsOf, hrl]) fun j hj1 hj2 => ?_
    have hj : j < c := by rwa [hrl] at hj1
    obtain ⟨G, k1, k2⟩ := h ⟨i, hi⟩ ⟨j, hj⟩
    have hline : HasDerivAt (fun x : ℝ => U + x • unitAmp (⟨i, hi⟩ : Fin N) (⟨j, hj⟩ : Fin c))
        (unitAmp ⟨i, hi⟩ ⟨j, hj⟩) 0 := by
      have h4 := ((hasDerivAt_id (0 : ℝ)).smul_const (unitAmp (⟨i, hi⟩ : Fin N) (⟨j, hj⟩ : Fin c))).const_add U
      simpa using h4
    have hL' : HasFDerivAt F L (U + (0 : ℝ) • unitAmp (⟨i, hi⟩ : Fin N) (⟨j, hj⟩ : Fin c)) := by
      rw [zero_smul, add_zero]; exact hL
    have h6 : G = L (unitAmp ⟨i, hi⟩ ⟨j, hj⟩) := k2.unique (hL'.comp_hasDerivAt (0 : ℝ) hline)
    unfold entry at k1
    rw [List.getElem?_eq_getElem hi1] at k1
    simp only [Option.bind_some, List.getElem?_eq_getElem hj1, Option.some.injEq] at k1
    simp only [rowsOf, List.getElem_ofFn]
    rw [k1, h6]
  · have hV : V = ∑ t, ∑ k, V t k • unitAmp t k := by
      funext i j
      simp only [Finset.sum_apply, Pi.smul_apply, smul_eq_mul, unitAmp]
      rw [Finset.sum_eq_single i, Finset.sum_eq_single j]
      · simp
      · intro k _ hk; simp [Pi.single_eq_of_ne (Ne.symm hk)]
      · simp
      · intro t _ ht; simp [Pi.single_eq_of_ne (Ne.symm ht)]
      · simp
    conv_lhs => rw [hV]
    simp only [map_sum, map_smul, smul_eq_mul]
    exact Finset.sum_congr rfl fun t _ => Finset.sum_congr rfl fun k _ => mul_comm _ _

/-- The entries of `grad()` form the total derivative of `costs()` as a function of the whole array of amplitudes, for
every cost function that is a differentiable function of the final propagator and whose gradient is right for every sweep
of a single propagator. -/
theorem total_gradient (p : SPar n m) (τ : List ℝ) (hv : p.Valid τ) (hst : Stable p.cfg)
    (hmeth : p.method = .frechet) (happ : p.approx = .none) (hE : p.L.ExpmOk) (hF : p.L.FrechetOk) (hne : p.xTimes τ ≠ [])
    (hreach : ∀ U : Fin (p.xTimes τ).length → Fin p.ctrl.length → ℝ, ∃ y, ampsOf p.cfg τ y = some (rowsOf U))
    (costF : List (Matrix n m ℂ) → Except PyErr ℝ) (gradF : Trace n m → Except PyErr (List (List ℝ)))
    (Φ : Matrix n m ℂ → ℝ) (hΦ : ∀ fwd E, fwd.getLast? = some E → costF fwd = .ok (Φ E))
    (hd : ∀ M : (Fin (p.xTimes τ).length → Fin p.ctrl.length → ℝ) → Matrix n m ℂ, MatDiff M → Differentiable ℝ fun U => Φ (M U))
    (hgrad : ∀ ps : List (Matrix n n ℂ), ps ≠ [] → ∀ tr : Trace n m, tr.Of p.init ps p.ctrl.length →
      ∃ g, gradF tr = .ok g ∧ Rect g ps.length p.ctrl.length ∧
        ∀ t c P D fwds, Sweep p.init ps t P D fwds → tr.derivAt t c = some D →
          ∃ (G : ℝ) (cost : ℝ → ℝ), entry g t c = some G ∧ (∀ x, costF (fwds x) = .ok (cost x)) ∧
            costF tr.fwd = .ok (cost 0) ∧ HasDerivAt cost G 0)
    (U : Fin (p.xTimes τ).length → Fin p.ctrl.length → ℝ) :
    ∃ g : Fin (p.xTimes τ).length → Fin p.ctrl.length → ℝ,
      (∀ s, Ready p τ (rowsOf U) s → (gradOn gradF p.cfg s).1 = .ok (rowsOf g)) ∧
      (∀ (V : Fin (p.xTimes τ).length → Fin p.ctrl.length → ℝ) s, Ready p τ (rowsOf V) s → (costOn costF p.cfg s).1 = .ok (Φ (p.final τ (rowsOf V)))) ∧
      ∃ L : (Fin (p.xTimes τ).length → Fin p.ctrl.length → ℝ) →L[ℝ] ℝ,
        HasFDerivAt (fun V : Fin (p.xTimes τ).length → Fin p.ctrl.length → ℝ => Φ (p.final τ (rowsOf V))) L U ∧ ∀ V, L V = ∑ t, ∑ k, g t k * V t k := by
  have hcost : ∀ (V : Fin (p.xTimes τ).length → Fin p.ctrl.length → ℝ) s, Ready p τ (rowsOf V) s → (costOn costF p.cfg s).1 = .ok (Φ (p.final τ (rowsOf V))) := by
    intro V s hs
    obtain ⟨f, s', h1, h2, -⟩ := hs.fwd hv hst
    unfold costOn
    rw [h1]
    exact hΦ _ _ (final_last h2)
  have hdf : Differentiable ℝ fun V : Fin (p.xTimes τ).length → Fin p.ctrl.length → ℝ => Φ (p.final τ (rowsOf V)) := hd _ (final_diff p τ hmeth hE)
  have hps : p.steps τ (rowsOf U) ≠ [] := by
    intro h0
    apply hne
    have := steps_length p τ (rowsOf U)
    rw [h0] at this
    exact List.length_eq_zero_iff.mp this.symm
  choose Y hY using hreach
  obtain ⟨g, h1, h2, h3⟩ := amplitude_gradient p τ hv hst hmeth happ hE hF hne costF gradF (rowsOf U) _
    (ready_fresh p τ _ _ (hY U)) (hgrad _ hps)
  obtain ⟨G, hG, L, hL1, hL2⟩ := total_of_entries _ hdf U g h2 (fun t k => by
    obtain ⟨G, cost, k1, k2, -, k4⟩ := h3 t k t.2 k.2 (fun x => fresh p.cfg τ (Y (U + x • unitAmp t k))) (fun x => by
      rw [rowsOf_bump U t k x]
      exact ready_fresh p τ _ _ (hY _))
    refine ⟨G, k1, ?_⟩
    have hcx : cost = fun x => Φ (p.final τ (rowsOf (U + x • unitAmp t k))) := by
      funext x
      have := hcost _ _ (ready_fresh p τ _ _ (hY (U + x • unitAmp t k)))
      rw [k2 x] at this
      exact Except.ok.inj this
    rw [hcx] at k4
    exact k4)
  refine ⟨G, fun s hs => ?_, hcost, L, hL1, hL2⟩
  obtain ⟨g', e1, e2, e3⟩ := amplitude_gradient p τ hv hst hmeth happ hE hF hne costF gradF (rowsOf U) s hs (hgrad _ hps)
  rw [e1, ← hG]
  congr 1
  refine List.ext_getElem (e2.1.trans h2.1.symm) fun i hi1 hi2 => ?_
  have hi : i < (p.xTimes τ).length := by rw [← e2.1]; exact hi1
  refine List.ext_getElem ((e2.2 _ (List.getElem_mem hi1)).trans (h2.2 _ (List.getElem_mem hi2)).symm) fun j hj1 hj2 => ?_
  have hj : j < p.ctrl.length := by rw [← e2.2 _ (List.getElem_mem hi1)]; exact hj1
  have hsx : ∀ x, Ready p τ (bump (rowsOf U) i j x) (fresh p.cfg τ (Y (U + x • unitAmp ⟨i, hi⟩ ⟨j, hj⟩))) := fun x => by
    have := rowsOf_bump U ⟨i, hi⟩ ⟨j, hj⟩ x
    simp only at this
    rw [this]
    exact ready_fresh p τ _ _ (hY _)
  obtain ⟨G1, c1, k1, k2, -, k4⟩ := e3 i j hi hj _ hsx
  obtain ⟨G2, c2, l1, l2, -, l4⟩ := h3 i j hi hj _ hsx
  have hc : c1 = c2 := by
    funext x
    have := (k2 x).symm.trans (l2 x)
    exact Except.ok.inj this
  subst hc
  have hG12 := k4.unique l4
  unfold entry at k1 l1
  rw [List.getElem?_eq_getElem hi1] at k1
  rw [List.getElem?_eq_getElem hi2] at l1
  simp only [Option.bind_some, List.getElem?_eq_getElem hj1, Option.some.injEq] at k1
  simp only [Option.bind_some, List.getElem?_eq_getElem hj2, Option.some.injEq] at l1
  rw [k1, l1, hG12]

/-- The gradient of `OperationInfidelity` for every array of amplitudes. -/
theorem c93_operation_total (p : SPar n n) (τ : List ℝ) (hv : p.Valid τ) (hst : Stable p.cfg)
    (hmeth : p.method = .frechet) (happ : p.approx = .none) (hE : p.L.ExpmOk) (hF : p.L.FrechetOk) (hne : p.xTimes τ ≠ [])
    (hreach : ∀ U : Fin (p.xTimes τ).length → Fin p.ctrl.length → ℝ, ∃ y, ampsOf p.cfg τ y = some (rowsOf U))
    (cl : Closest) (cs : Option (List n)) (hcs : cs ≠ some []) (mcu : Bool) (hm : mcu = false ∨ cs = none)
    (T : Matrix (CompIdx cs) (CompIdx cs) ℂ) (U : Fin (p.xTimes τ).length → Fin p.ctrl.length → ℝ) :
    ∃ g : Fin (p.xTimes τ).length → Fin p.ctrl.length → ℝ,
      (∀ s, Ready p τ (rowsOf U) s →
        (gradOn (fun tr => opGrad cl cs T mcu tr.fwd tr.dP tr.rev) p.cfg s).1 = .ok (rowsOf g)) ∧
      (∀ (V : Fin (p.xTimes τ).length → Fin p.ctrl.length → ℝ) s, Ready p τ (rowsOf V) s →
        (costOn (opCosts cl cs T mcu) p.cfg s).1 = .ok (1 - entFid cl cs T (p.final τ (rowsOf V)) mcu)) ∧
      ∃ L : (Fin (p.xTimes τ).length → Fin p.ctrl.length → ℝ) →L[ℝ] ℝ,
        HasFDerivAt (fun V : Fin (p.xTimes τ).length → Fin p.ctrl.length → ℝ =>
          1 - entFid cl cs T (p.final τ (rowsOf V)) mcu) L U ∧ ∀ V, L V = ∑ t, ∑ k, g t k * V t k := by
  refine total_gradient p τ hv hst hmeth happ hE hF hne hreach (opCosts cl cs T mcu)
    (fun tr => opGrad cl cs T mcu tr.fwd tr.dP tr.rev) (fun E => 1 - entFid cl cs T E mcu) ?_ ?_
    (fun ps hps tr htr => c44_gradient cl cs hcs mcu hm T p.init ps hps _ (List.length_pos_iff.mpr hv.1) tr htr) U
  · intro fwd E h
    unfold opCosts
    rw [last_ok h]
    rfl
  · intro M hM
    have hT : MatDiff fun U => truncTo cl cs mcu (M U) := by
      cases cs with
      | none => exact hM
      | some l =>
        rcases hm with rfl | h
        · exact fun i j => hM (l.get i) (l.get j)
        · simp at h
    unfold entFid
    simp only [div_eq_mul_inv]
    refine Differentiable.const_sub (Differentiable.mul_const (Differentiable.mul_const ?_ _) _) _
    exact differentiable_norm_sq ((MatDiff.const _).mul hT).trace

/-- The gradient of `StateInfidelity` for every array of amplitudes. -/
theorem c93_state_total (p : SPar n (Fin 1)) (τ : List ℝ) (hv : p.Valid τ) (hst : Stable p.cfg)
    (hmeth : p.method = .frechet) (happ : p.approx = .none) (hE : p.L.ExpmOk) (hF : p.L.FrechetOk) (hne : p.xTimes τ ≠ [])
    (hreach : ∀ U : Fin (p.xTimes τ).length → Fin p.ctrl.length → ℝ, ∃ y, ampsOf p.cfg τ y = some (rowsOf U))
    (cs : Option (List n)) (hcs : cs ≠ some []) (T : Matrix (Fin 1) (CompIdx cs) ℂ) (r : Bool)
    (U : Fin (p.xTimes τ).length → Fin p.ctrl.length → ℝ) :
    ∃ g : Fin (p.xTimes τ).length → Fin p.ctrl.length → ℝ,
      (∀ s, Ready p τ (rowsOf U) s →
        (gradOn (fun tr => stateGrad cs T r tr.fwd tr.dP tr.rev) p.cfg s).1 = .ok (rowsOf g)) ∧
      (∀ (V : Fin (p.xTimes τ).length → Fin p.ctrl.length → ℝ) s, Ready p τ (rowsOf V) s →
        (costOn (stateCosts cs T r) p.cfg s).1 = .ok (1 - ‖(T * selRows cs (p.final τ (rowsOf V))) 0 0‖ ^ 2)) ∧
      ∃ L : (Fin (p.xTimes τ).length → Fin p.ctrl.length → ℝ) →L[ℝ] ℝ,
        HasFDerivAt (fun V : Fin (p.xTimes τ).length → Fin p.ctrl.length → ℝ =>
          1 - ‖(T * selRows cs (p.final τ (rowsOf V))) 0 0‖ ^ 2) L U ∧ ∀ V, L V = ∑ t, ∑ k, g t k * V t k := by
  refine total_gradient p τ hv hst hmeth happ hE hF hne hreach (stateCosts cs T r)
    (fun tr => stateGrad cs T r tr.fwd tr.dP tr.rev) (fun E => 1 - ‖(T * selRows cs E) 0 0‖ ^ 2) ?_ ?_
    (fun ps _ tr htr => c51_gradient cs hcs T r p.init ps _ (List.length_pos_iff.mpr hv.1) tr htr) U
  · intro fwd E h
    unfold stateCosts
    rw [last_ok h]
    simp only [bind, Except.bind]
    rw [stateFid_eq, Matrix.mul_apply]
    rfl
  · intro M hM
    refine Differentiable.const_sub (differentiable_norm_sq ?_) _
    have : MatDiff fun U => selRows cs (M U) := fun i j => hM (sel cs i) j
    exact ((MatDiff.const T).mul this) 0 0

end
end Verif.Cost
