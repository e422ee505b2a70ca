import Verif.Cost.Worst

/-!
# C119: with commuting Hamiltonians only the area of the pulse matters

Closed systems (solver_algorithms.py:885-1012 through the model of `SchroedingerSolver`) whose drift and control operators commute.
-/

namespace Verif.Cost
open Verif Verif.Operator Verif.Solver Matrix

variable {n m : Type} [Fintype n] [DecidableEq n]

/-! ## Specification -/

/-- All operators of the system commute. -/
def AllCommute (p : SPar n m) : Prop := ∀ A ∈ p.drift ++ p.ctrl, ∀ B ∈ p.drift ++ p.ctrl, A * B = B * A

/-- The Hamiltonian integrated over the pulse. -/
noncomputable def integrated (p : SPar n m) (τ : List ℝ) (U : Fin (p.xTimes τ).length → Fin p.ctrl.length → ℝ) : Matrix n n ℂ :=
  (∑ t : Fin (p.xTimes τ).length, (((p.xTimes τ).get t : ℝ) : ℂ) • p.drift.getD t 0) +
    ∑ c : Fin p.ctrl.length, ((∑ t, (p.xTimes τ).get t * U t c : ℝ) : ℂ) • p.ctrl.get c

/-! ## Lemmas -/

/-- The product of exponentials of commuting matrices. -/
theorem foldl_exp_commute : ∀ {N : Nat} (A : Fin N → Matrix n n ℂ) (_ : ∀ i j, Commute (A i) (A j)) (I : Matrix n m ℂ),
    (List.ofFn fun t => NormedSpace.exp (A t)).foldl (fun F P => P * F) I = NormedSpace.exp (∑ t, A t) * I := by
  intro N
  induction N with
  | zero => intro A _ I; simp
  | succ N ih =>
    intro A h I
    rw [List.ofFn_succ, List.foldl_cons, ih (fun t => A t.succ) (fun i j => h _ _), ← Matrix.mul_assoc, Fin.sum_univ_succ,
      add_comm (A 0), Matrix.exp_add_of_commute]
    exact Commute.sum_left _ _ _ fun i _ => h _ _

theorem commuting_final (p : SPar n m) (τ : List ℝ) (hv : p.Valid τ) (hm : p.method = .frechet) (hE : p.L.ExpmOk) (hc : AllCommute p)
    (U : Fin (p.xTimes τ).length → Fin p.ctrl.length → ℝ) :
    p.final τ (rowsOf U) = NormedSpace.exp ((-Complex.I) • integrated p τ U) * p.init := by
  rw [clean_final p τ hm hE []]
  unfold noisyFinal
  have hA : ∀ t : Fin (p.xTimes τ).length, hamiltonian (p.drift.getD t 0) p.ctrl ((rowsOf U).getD t []) =
       p.drift.getD t 0 + ∑ c, ((U t c : ℝ) : ℂ) • p.ctrl.get c := by
    intro t
    rw [rowsOf_get U t t.2, hamiltonian_eq_sum _ _ _ (by simp)]
    congr 1
    refine Finset.sum_congr rfl fun c _ => ?_
    simp
  have hmem : ∀ t : Fin (p.xTimes τ).length, p.drift.getD t 0 ∈ p.drift ++ p.ctrl := fun t => by
    rw [List.getD_eq_getElem _ _ (by rw [hv.2.1]; exact t.2)]
    exact List.mem_append_left _ (List.getElem_mem _)
  have hmc : ∀ c : Fin p.ctrl.length, p.ctrl.get c ∈ p.drift ++ p.ctrl := fun c => List.mem_append_right _ (List.get_mem _ _)
  have h := foldl_exp_commute (fun t : Fin (p.xTimes τ).length => (((p.xTimes τ)[t] : ℝ) : ℂ) • (-Complex.I) •
    (p.drift.getD t 0 + ∑ c, ((U t c : ℝ) : ℂ) • p.ctrl.get c)) ?_ p.init
  · have e : noisyStep p [] τ (rowsOf U) 0 = fun t : Fin (p.xTimes τ).length => NormedSpace.exp ((((p.xTimes τ)[t] : ℝ) : ℂ) • (-Complex.I) •
        (p.drift.getD t 0 + ∑ c, ((U t c : ℝ) : ℂ) • p.ctrl.get c)) := by
      funext t
      unfold noisyStep
      rw [hA]
      simp
    rw [e, h]
    congr 2
    unfold integrated
    simp only [smul_comm _ (-Complex.I), ← Finset.smul_sum]
    congr 1
    simp only [smul_add, Finset.sum_add_distrib, Complex.ofReal_sum, Complex.ofReal_mul, Finset.smul_sum, Finset.sum_smul, smul_smul]
    rw [Finset.sum_comm (s := (Finset.univ : Finset (Fin (p.xTimes τ).length)))]
    rfl
  · intro i j
    refine ((Commute.smul_left (Commute.smul_left ?_ _) _).smul_right _).smul_right _
    refine (Commute.add_left (Commute.add_right (hc _ (hmem i) _ (hmem j)) ?_) (Commute.add_right ?_ ?_))
    · exact Commute.sum_right _ _ _ fun c _ => Commute.smul_right (hc _ (hmem i) _ (hmc c)) _
    · exact Commute.sum_left _ _ _ fun c _ => Commute.smul_left (hc _ (hmc c) _ (hmem j)) _
    · exact Commute.sum_left _ _ _ fun c _ => Commute.sum_right _ _ _ fun d _ =>
        (Commute.smul_left (hc _ (hmc c) _ (hmc d)) _).smul_right _

/-! ## The property -/

/-- **C119** The final propagator is the exponential of the integrated Hamiltonian. -/
theorem c119_evolution (p : SPar n m) (τ : List ℝ) (hv : p.Valid τ) (hst : Stable p.cfg) (hm : p.method = .frechet) (hE : p.L.ExpmOk)
    (hc : AllCommute p) (U : Fin (p.xTimes τ).length → Fin p.ctrl.length → ℝ) (s : St n m) (hr : Ready p τ (rowsOf U) s) :
    ∃ f, (readFwd p.cfg s).1 = .ok f ∧ f.getLast? = some (NormedSpace.exp ((-Complex.I) • integrated p τ U) * p.init) := by
  obtain ⟨f, s1, c1, c2, -⟩ := hr.fwd hv hst
  exact ⟨f, by rw [c1], by rw [final_last c2, commuting_final p τ hv hm hE hc]⟩

/-- **C119** Two pulses with the same integrated Hamiltonian, of the same or of different durations and numbers of steps, have the same
infidelity. -/
theorem c119_area (p : SPar n n) (d : List (Matrix n n ℂ)) (τ τ' : List ℝ) (hv : p.Valid τ) (hv' : { p with drift := d }.Valid τ')
    (hst : Stable p.cfg) (hm : p.method = .frechet) (hE : p.L.ExpmOk) (hc : AllCommute p) (hc' : AllCommute { p with drift := d })
    (cl : Closest) (cs : Option (List n)) (T : Matrix (CompIdx cs) (CompIdx cs) ℂ) (mcu : Bool)
    (U : Fin (p.xTimes τ).length → Fin p.ctrl.length → ℝ) (V : Fin (p.xTimes τ').length → Fin p.ctrl.length → ℝ)
    (he : integrated p τ U = integrated { p with drift := d } τ' V) :
    ∃ c, (∀ s, Ready p τ (rowsOf U) s → (costOn (opCosts cl cs T mcu) p.cfg s).1 = .ok c) ∧
      ∀ s, Ready { p with drift := d } τ' (rowsOf V) s → (costOn (opCosts cl cs T mcu) { p with drift := d }.cfg s).1 = .ok c := by
  refine ⟨_, fun s hr => opCost_value p τ hv hst cl cs T mcu _ s hr, fun s hr => ?_⟩
  rw [opCost_value { p with drift := d } τ' hv' hst cl cs T mcu _ s hr, commuting_final p τ hv hm hE hc,
    commuting_final { p with drift := d } τ' hv' hm hE hc', he]

/-- **C119** The gradient of the infidelity is proportional to the durations of the time steps: the sensitivity to the area of a control
does not depend on when the area is played. -/
theorem c119_gradient (p : SPar n n) (τ : List ℝ) (hv : p.Valid τ) (hst : Stable p.cfg) (hm : p.method = .frechet) (hE : p.L.ExpmOk)
    (hF : p.L.FrechetOk) (happ : p.approx = .none) (hne : p.xTimes τ ≠ []) (hc : AllCommute p)
    (hreach : ∀ U : Fin (p.xTimes τ).length → Fin p.ctrl.length → ℝ, ∃ y, ampsOf p.cfg τ y = some (rowsOf U))
    (cl : Closest) (cs : Option (List n)) (hcs : cs ≠ some []) (mcu : Bool) (hp : mcu = false ∨ cs = none)
    (T : Matrix (CompIdx cs) (CompIdx cs) ℂ) (U : Fin (p.xTimes τ).length → Fin p.ctrl.length → ℝ) (s : St n n)
    (hr : Ready p τ (rowsOf U) s) :
    ∃ g : Fin (p.xTimes τ).length → Fin p.ctrl.length → ℝ,
      (gradOn (fun tr => opGrad cl cs T mcu tr.fwd tr.dP tr.rev) p.cfg s).1 = .ok (rowsOf g) ∧
      ∀ t t' c, g t c * (p.xTimes τ).get t' = g t' c * (p.xTimes τ).get t := by
  obtain ⟨g, h1, -, L, h3, h4⟩ := c93_operation_total p τ hv hst hm happ hE hF hne hreach cl cs hcs mcu hp T U
  refine ⟨g, h1 s hr, fun t t' c => ?_⟩
  -- a direction which keeps the areas
  set V : Fin (p.xTimes τ).length → Fin p.ctrl.length → ℝ :=
    (p.xTimes τ).get t' • unitAmp t c - (p.xTimes τ).get t • unitAmp t' c with hV
  have hsum : ∀ (t : Fin (p.xTimes τ).length) (w : Fin (p.xTimes τ).length → ℝ) (d : Fin p.ctrl.length), ∑ s, w s * unitAmp t c s d = if d = c then w t else 0 := by
    intro t w d
    rw [Finset.sum_eq_single t]
    · by_cases hd : d = c
      · subst hd; simp [unitAmp]
      · simp [unitAmp, hd]
    · intro b _ hb; simp [unitAmp, hb]
    · simp
  have hint : ∀ x : ℝ, integrated p τ (U + x • V) = integrated p τ U := by
    intro x
    unfold integrated
    congr 1
    refine Finset.sum_congr rfl fun d _ => ?_
    congr 2
    simp only [Pi.add_apply, Pi.smul_apply, smul_eq_mul, mul_add, Finset.sum_add_distrib]
    rw [add_eq_left, hV]
    simp only [Pi.sub_apply, Pi.smul_apply, smul_eq_mul]
    have h1 := hsum t (fun s => (p.xTimes τ).get s) d
    have h2 := hsum t' (fun s => (p.xTimes τ).get s) d
    have e : ∀ s, (p.xTimes τ).get s * (x * ((p.xTimes τ).get t' * unitAmp t c s d - (p.xTimes τ).get t * unitAmp t' c s d)) =
        x * (p.xTimes τ).get t' * ((p.xTimes τ).get s * unitAmp t c s d) -
          x * (p.xTimes τ).get t * ((p.xTimes τ).get s * unitAmp t' c s d) := fun s => by ring
    simp only [e, Finset.sum_sub_distrib, ← Finset.mul_sum, h1, h2]
    split <;> ring
  have hline : HasDerivAt (fun x : ℝ => U + x • V) V 0 := by
    simpa using ((hasDerivAt_id (0 : ℝ)).smul_const V).const_add U
  have h6 : HasFDerivAt (fun W : Fin (p.xTimes τ).length → Fin p.ctrl.length → ℝ =>
      1 - entFid cl cs T (p.final τ (rowsOf W)) mcu) L (U + (0 : ℝ) • V) := by simpa using h3
  have h7 := h6.comp_hasDerivAt (0 : ℝ) hline
  have h8 : HasDerivAt ((fun W : Fin (p.xTimes τ).length → Fin p.ctrl.length → ℝ =>
      1 - entFid cl cs T (p.final τ (rowsOf W)) mcu) ∘ fun x : ℝ => U + x • V) 0 0 := by
    have e : ((fun W : Fin (p.xTimes τ).length → Fin p.ctrl.length → ℝ =>
        1 - entFid cl cs T (p.final τ (rowsOf W)) mcu) ∘ fun x : ℝ => U + x • V) =
        fun _ => 1 - entFid cl cs T (p.final τ (rowsOf U)) mcu := by
      funext x
      simp only [Function.comp, commuting_final p τ hv hm hE hc, hint]
    rw [e]
    exact hasDerivAt_const _ _
  have h9 : L V = 0 := h7.unique h8
  have hL : ∀ t, L (unitAmp t c) = g t c := by
    intro t
    rw [h4, Finset.sum_eq_single t, Finset.sum_eq_single c]
    · simp [unitAmp]
    · intro b _ hb; simp [unitAmp, hb]
    · simp
    · intro b _ hb
      refine Finset.sum_eq_zero fun k _ => ?_
      simp [unitAmp, hb]
    · simp
  rw [hV, map_sub, map_smul, map_smul, hL, hL, smul_eq_mul, smul_eq_mul] at h9
  linarith

/-! ## Examples -/

namespace Ex119

/-- A qubit with a drift and two controls along the same axis. -/
noncomputable def par (L : Lapack (Fin 2)) (d : List (Matrix (Fin 2) (Fin 2) ℂ)) : SPar (Fin 2) (Fin 2) :=
  ⟨L, .frechet, true, true, .none, 1, d, [!![1, 0; 0, -1], !![0, 0; 0, 5]], idTf, id, idAmp⟩

theorem commute (L : Lapack (Fin 2)) (k : Nat) : AllCommute (par L (List.replicate k !![2, 0; 0, 3])) := by
  have h : ∀ A ∈ (par L (List.replicate k !![2, 0; 0, 3])).drift ++ (par L (List.replicate k !![2, 0; 0, 3])).ctrl,
      A 0 1 = 0 ∧ A 1 0 = 0 := by
    intro A hA
    simp only [par, List.mem_append, List.mem_replicate, List.mem_cons, List.not_mem_nil, or_false] at hA
    rcases hA with ⟨-, rfl⟩ | rfl | rfl <;> simp
  intro A hA B hB
  obtain ⟨a1, a2⟩ := h A hA
  obtain ⟨b1, b2⟩ := h B hB
  ext i j
  fin_cases i <;> fin_cases j <;> simp [Matrix.mul_apply, a1, a2, b1, b2, mul_comm]

theorem ready (L : Lapack (Fin 2)) (d : List (Matrix (Fin 2) (Fin 2) ℂ)) (y : Pulse) (τ : List ℝ) (hy : y ≠ [])
    (hτ : y.length = τ.length) (hr : ∀ row ∈ y, row.length = 2) : Ready (par L d) τ y (fresh (par L d).cfg τ y) :=
  ready_fresh _ _ y y (ampsOf_simple L .frechet true .none 1 _ _ τ y hy hτ hr)

theorem valid (L : Lapack (Fin 2)) (k : Nat) (τ : List ℝ) (h : τ.length = k) :
    (par L (List.replicate k !![2, 0; 0, 3])).Valid τ := ⟨by simp [par], by simp [par, h], by simp [par]⟩

end Ex119

/-- `c119_evolution` and `c119_area` apply: 1, 2 and 3 units of time, or 6 units at once. -/
example (cl : Closest) : ∃ (L : Lapack (Fin 2)) (c : ℝ),
    (costOn (opCosts cl none 1 false) (Ex119.par L (List.replicate 3 !![2, 0; 0, 3])).cfg
      (fresh (Ex119.par L (List.replicate 3 !![2, 0; 0, 3])).cfg [1, 2, 3] [[6, 1], [3, 2], [1, 0]])).1 = .ok c ∧
    (costOn (opCosts cl none 1 false) (Ex119.par L (List.replicate 1 !![2, 0; 0, 3])).cfg
      (fresh (Ex119.par L (List.replicate 1 !![2, 0; 0, 3])).cfg [6] [[5 / 2, 5 / 6]])).1 = .ok c := by
  obtain ⟨L, -, -, hE, -⟩ := lapack_exists (Fin 2)
  have hU : ([[6, 1], [3, 2], [1, 0]] : Pulse) = rowsOf (![![6, 1], ![3, 2], ![1, 0]] : Fin 3 → Fin 2 → ℝ) := by
    simp [rowsOf, List.ofFn_succ]
  have hV : ([[5 / 2, 5 / 6]] : Pulse) = rowsOf (![![5 / 2, 5 / 6]] : Fin 1 → Fin 2 → ℝ) := by
    simp [rowsOf, List.ofFn_succ]
  obtain ⟨c, h1, h2⟩ := c119_area (Ex119.par L (List.replicate 3 !![2, 0; 0, 3])) (List.replicate 1 !![2, 0; 0, 3]) [1, 2, 3] [6]
    (Ex119.valid L 3 _ rfl) (Ex119.valid L 1 _ rfl) (Or.inl ⟨rfl, rfl⟩) rfl hE (Ex119.commute L 3) (Ex119.commute L 1) cl none 1 false
    (![![6, 1], ![3, 2], ![1, 0]] : Fin 3 → Fin 2 → ℝ) (![![5 / 2, 5 / 6]] : Fin 1 → Fin 2 → ℝ) (by
      show (∑ t : Fin 3, ((([1, 2, 3] : List ℝ).get t : ℝ) : ℂ) • (List.replicate 3 (!![2, 0; 0, 3] : Matrix (Fin 2) (Fin 2) ℂ)).getD t 0) +
          ∑ c : Fin 2, ((∑ t : Fin 3, ([1, 2, 3] : List ℝ).get t * (![![6, 1], ![3, 2], ![1, 0]] : Fin 3 → Fin 2 → ℝ) t c : ℝ) : ℂ) •
            ([!![1, 0; 0, -1], !![0, 0; 0, 5]] : List (Matrix (Fin 2) (Fin 2) ℂ)).get c =
        (∑ t : Fin 1, ((([6] : List ℝ).get t : ℝ) : ℂ) • (List.replicate 1 (!![2, 0; 0, 3] : Matrix (Fin 2) (Fin 2) ℂ)).getD t 0) +
          ∑ c : Fin 2, ((∑ t : Fin 1, ([6] : List ℝ).get t * (![![5 / 2, 5 / 6]] : Fin 1 → Fin 2 → ℝ) t c : ℝ) : ℂ) •
            ([!![1, 0; 0, -1], !![0, 0; 0, 5]] : List (Matrix (Fin 2) (Fin 2) ℂ)).get c
      ext i j
      fin_cases i <;> fin_cases j <;> simp [Fin.sum_univ_succ] <;> norm_num)
  refine ⟨L, c, h1 _ ?_, h2 _ ?_⟩
  · have h := Ex119.ready L (List.replicate 3 !![2, 0; 0, 3]) [[6, 1], [3, 2], [1, 0]] [1, 2, 3] (by simp) rfl (by simp)
    exact (congrArg (fun u => Ready (Ex119.par L (List.replicate 3 !![2, 0; 0, 3])) [1, 2, 3] u _) hU).mp h
  · have h := Ex119.ready L (List.replicate 1 !![2, 0; 0, 3]) [[5 / 2, 5 / 6]] [6] (by simp) rfl (by simp)
    exact (congrArg (fun u => Ready (Ex119.par L (List.replicate 1 !![2, 0; 0, 3])) [6] u _) hV).mp h

/-- `c119_gradient` applies. -/
example (cl : Closest) : ∃ (L : Lapack (Fin 2)) (g : Fin 3 → Fin 2 → ℝ),
    (gradOn (fun tr => opGrad cl none 1 false tr.fwd tr.dP tr.rev) (Ex119.par L (List.replicate 3 !![2, 0; 0, 3])).cfg
      (fresh (Ex119.par L (List.replicate 3 !![2, 0; 0, 3])).cfg [1, 2, 3] (rowsOf fun (_ : Fin 3) (c : Fin 2) => (c : ℝ)))).1 =
        .ok (rowsOf g) ∧ g 2 0 = g 0 0 * 3 := by
  obtain ⟨L, -, -, hE, hF⟩ := lapack_exists (Fin 2)
  have hr : ∀ U : Fin 3 → Fin 2 → ℝ, ∀ row ∈ rowsOf U, row.length = 2 := fun U row h => by
    obtain ⟨t, rfl⟩ := (List.mem_ofFn' _ _).mp h
    simp
  obtain ⟨g, h1, h2⟩ := c119_gradient (Ex119.par L (List.replicate 3 !![2, 0; 0, 3])) [1, 2, 3] (Ex119.valid L 3 _ rfl) (Or.inl ⟨rfl, rfl⟩)
    rfl hE hF rfl (by simp [Ex119.par]) (Ex119.commute L 3)
    (fun U => ⟨_, ampsOf_simple L .frechet true .none 1 _ _ [1, 2, 3] (rowsOf U) (List.cons_ne_nil _ _) rfl (hr U)⟩)
    cl none (by simp) false (Or.inl rfl) 1 (fun (_ : Fin 3) (c : Fin 2) => (c : ℝ)) _
    (Ex119.ready L _ _ _ (List.cons_ne_nil _ _) rfl (hr _))
  refine ⟨L, g, h1, ?_⟩
  have := h2 (2 : Fin 3) (0 : Fin 3) (0 : Fin 2)
  change g (2 : Fin 3) (0 : Fin 2) * (1 : ℝ) = g (0 : Fin 3) (0 : Fin 2) * (3 : ℝ) at this
  simpa using this

end Verif.Cost
