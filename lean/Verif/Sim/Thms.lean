import Verif.Sim.Lemmas
import Mathlib.Analysis.SpecialFunctions.Trigonometric.Deriv
import Mathlib.Analysis.Calculus.Deriv.Prod

/-!
# Property theorems C55 and C56: Jacobian and order of the costs
-/

namespace Verif.Sim
open Verif Verif.Transfer

variable {p : Nat}

/-! ## C55 -/

/-- `row` holds the derivatives by parameter `j` of the entries of the cost vector `C h` at `h = 0`. -/
def RowDeriv (C : ℝ → List ℝ) (row : List (Fin p → ℝ)) (j : Fin p) : Prop :=
  (∀ h, (C h).length = row.length) ∧ ∀ i, HasDerivAt (fun h => (C h).getD i 0) (row.getD i 0 j) 0

theorem RowDeriv.append {C C' : ℝ → List ℝ} {r r' : List (Fin p → ℝ)} {j : Fin p} (h : RowDeriv C r j)
    (h' : RowDeriv C' r' j) : RowDeriv (fun x => C x ++ C' x) (r ++ r') j := by
  refine ⟨fun x => by simp [h.1 x, h'.1 x], fun i => ?_⟩
  by_cases hi : i < r.length
  · have e : (fun x => (C x ++ C' x).getD i 0) = fun x => (C x).getD i 0 := by
      funext x
      rw [List.getD_append _ _ _ _ (by rw [h.1 x]; exact hi)]
    rw [e, List.getD_append _ _ _ _ hi]
    exact h.2 i
  · have e : (fun x => (C x ++ C' x).getD i 0) = fun x => (C' x).getD (i - r.length) 0 := by
      funext x
      rw [List.getD_append_right _ _ _ _ (by rw [h.1 x]; omega), h.1 x]
    rw [e, List.getD_append_right _ _ _ _ (by omega)]
    exact h'.2 _

/-- One cost function. -/
theorem jacOf_deriv (F : CostFn p) (s s' : SolverObj p) (hfit : s.tf.Fits) (hc : s.Coherent) (ha : s.amp.Correct) (hF : F.Correct s)
    (y : Pulse ℝ p) (hs : s.setPars y = .ok s') (J : List (List (Fin p → ℝ))) (hJ : Sim.jacOf F s' y = .ok J) (t : Nat)
    (ht : t < y.length) (j : Fin p) :
    J.length = y.length ∧ ∃ C : ℝ → List ℝ,
      (∀ h s'', s.setPars (shift y t j h) = .ok s'' → F.costs s'' = .ok (C h)) ∧ RowDeriv C (J.getD t []) j := by
  obtain ⟨tf, x, hsame, hx, hl, rfl⟩ := setPars_ok hc hs
  obtain ⟨φ, hφ, hgrad⟩ := hF
  unfold Sim.jacOf at hJ
  obtain ⟨jac, hjac, hJ⟩ := TF.bind_ok hJ
  obtain ⟨⟨tf', x'⟩, htf, hJ⟩ := TF.bind_ok hJ
  simp only at hJ
  obtain ⟨jacX, hX, hJ⟩ := TF.bind_ok hJ
  obtain ⟨⟨tf'', jacY⟩, hY, hJ⟩ := TF.bind_ok hJ
  simp only [pure, Except.pure, Except.ok.injEq] at hJ
  subst hJ
  obtain ⟨g1, g2, g3⟩ := hgrad tf (some y) (s.amp.call x) jac hl hjac
  have hx' : x' = x := by
    have := call_run htf
    rw [← hsame.2.1, hx] at this
    simpa using this.symm
  subst hx'
  have hback : s.tf.back jacX = .ok jacY := by
    rw [hsame.2.2, (TF.call_same _ _ _ _ htf).2.2]
    exact back_grad hY
  -- length of the transferred gradient
  have hXl : jacX.length = x'.length := by
    have hchain : ∀ {p c f : Nat} (a : AmpFunc p c), a.Correct → ∀ (g : Grads ℝ f c) (x : Pulse ℝ p) gx,
        a.chain g x = .ok gx → g.length = (a.call x).length → gx.length = x.length := by
      intro p c f a ha g x gx hg hgl
      rw [amp_len a ha] at hgl
      cases a with
      | identity =>
        simp only [AmpFunc.chain, Except.ok.injEq] at hg
        rw [← hg]; exact hgl
      | unary v d =>
        simp only [AmpFunc.chain] at hg
        split at hg
        · simp only [Except.ok.injEq] at hg
          rw [← hg]; simp [hgl]
        · simp at hg
      | custom v d =>
        simp only [AmpFunc.chain] at hg
        split at hg
        · rename_i e
          simp only [Except.ok.injEq] at hg
          rw [← hg]; simp [hgl, e]
        · simp at hg
    exact hchain s.amp ha _ _ _ hX g1
  have hy0 : shift y t j 0 = y := shift_zero y t j
  obtain ⟨X, X', hX1, hX2, hX3, hX4⟩ := tf_curve s.tf hfit (shift_curve y t j) (h₀ := 0) (by simp only [hy0]; exact hx)
    jacX jacY hXl hback
  obtain ⟨u', hu1, hu2⟩ := amp_curve s.amp ha hX3 jac.expand.2 jacX (by rw [hX2]; exact hX)
  refine ⟨by rw [List.length_map, run_back_len s.tf y x' jacX jacY hfit hx hXl hback], fun h => φ (s.amp.call (X h)), ?_, ?_, ?_⟩
  · intro h s'' hs''
    obtain ⟨tf2, x2, -, hx2, hl2, rfl⟩ := setPars_ok hc hs''
    have : x2 = X h := by
      rw [hX1 h] at hx2
      simpa using hx2.symm
    subst this
    exact hφ _ _ _ hl2
  · intro h
    have hlh : (s.amp.call (X h)).length = s.nTimes := by
      rw [hu1.len h, ← hu1.len 0, hX2, hl]
    rw [g2 _ hlh]
    rw [List.getD_eq_getElem _ _ (by rw [List.length_map, run_back_len s.tf y x' jacX jacY hfit hx hXl hback]; exact ht)]
    simp
  · intro i
    have hrow : (List.map (fun r => List.ofFn r) jacY).getD t [] = List.ofFn (rowAt jacY t) := by
      have hlt : t < jacY.length := by rw [run_back_len s.tf y x' jacX jacY hfit hx hXl hback]; exact ht
      rw [List.getD_eq_getElem _ _ (by simpa using hlt), rowAt_lt _ _ hlt]
      simp
    rw [hrow]
    by_cases hi : i < jac.expand.1
    · have h1 := g3 (fun h => s.amp.call (X h)) u' 0 (by simp only [hX2]) hu1 ⟨i, hi⟩
      rw [hu2, hX4, pairing_unit _ _ _ _ _ ht] at h1
      have : (List.ofFn (rowAt jacY t)).getD i 0 j = rowAt jacY t ⟨i, hi⟩ j := by
        rw [List.getD_eq_getElem _ _ (by simpa using hi)]
        simp
      rw [this]
      exact h1
    · have e : (fun h => (φ (s.amp.call (X h))).getD i 0) = fun _ => 0 := by
        funext h
        have hlh : (s.amp.call (X h)).length = s.nTimes := by
          rw [hu1.len h, ← hu1.len 0, hX2, hl]
        rw [List.getD_eq_default _ _ (by rw [g2 _ hlh]; omega)]
      rw [e, List.getD_eq_default _ _ (by simp; omega)]
      exact hasDerivAt_const _ _

/-- The loop over the cost functions. -/
theorem jacLoop_deriv (solvers ss : List (SolverObj p)) (hfit : ∀ s ∈ solvers, s.tf.Fits) (hc : ∀ s ∈ solvers, s.Coherent)
    (ha : ∀ s ∈ solvers, s.amp.Correct) (y : Pulse ℝ p) (hss : Sim.setSolvers solvers y = .ok ss) (t : Nat)
    (ht : t < y.length) (j : Fin p) (Fs : List (CostFn p))
    (hF : ∀ F ∈ Fs, ∀ s, solvers[F.solver]? = some s → F.Correct s) (Js : List (List (List (Fin p → ℝ))))
    (hJ : Sim.jacLoop ss y Fs = .ok Js) :
    (∀ J ∈ Js, J.length = y.length) ∧ Js.length = Fs.length ∧ ∃ V : ℝ → List (List ℝ),
      (∀ h ss', Sim.setSolvers solvers (shift y t j h) = .ok ss' → Sim.costLoop ss' Fs = .ok (V h)) ∧
      RowDeriv (fun h => (V h).flatten) (Js.map fun J => J.getD t []).flatten j := by
  induction Fs generalizing Js with
  | nil =>
    simp only [Sim.jacLoop, Except.ok.injEq] at hJ
    subst hJ
    refine ⟨by simp, rfl, fun _ => [], fun _ _ _ => rfl, fun _ => rfl, fun i => ?_⟩
    simpa using hasDerivAt_const _ _
  | cons F Fs ih =>
    simp only [Sim.jacLoop] at hJ
    obtain ⟨s', hs', hJ⟩ := TF.bind_ok hJ
    obtain ⟨J, hJF, hJ⟩ := TF.bind_ok hJ
    obtain ⟨rest, hrest, hJ⟩ := TF.bind_ok hJ
    simp only [pure, Except.pure, Except.ok.injEq] at hJ
    subst hJ
    obtain ⟨s, hs, hset⟩ := setSolvers_get hss hs'
    have hmem := List.mem_of_getElem? hs
    obtain ⟨l1, C, hC, hD⟩ := jacOf_deriv F s s' (hfit s hmem) (hc s hmem) (ha s hmem) (hF F (by simp) s hs) y hset J hJF t ht j
    obtain ⟨l2, l3, V, hV, hD2⟩ := ih (fun F hF' => hF F (by simp [hF'])) rest hrest
    refine ⟨?_, by simp [l3], fun h => C h :: V h, ?_, ?_⟩
    · intro J' hJ'
      rcases List.mem_cons.mp hJ' with rfl | hJ'
      · exact l1
      · exact l2 J' hJ'
    · intro h ss' hss'
      obtain ⟨s'', h1, h2⟩ := setSolvers_get' hss' hs
      simp [Sim.costLoop, h1, hC h s'' h2, hV h ss' hss', bind, Except.bind, pure, Except.pure]
    · simpa using hD.append hD2

/-- Perturbed pulses are accepted whenever the pulse is. -/
theorem setSolvers_shift (solvers ss : List (SolverObj p)) (hc : ∀ s ∈ solvers, s.Coherent)
    (ha : ∀ s ∈ solvers, s.amp.Correct) (y z : Pulse ℝ p) (hz : z.length = y.length)
    (hss : Sim.setSolvers solvers y = .ok ss) : ∃ ss', Sim.setSolvers solvers z = .ok ss' := by
  apply setSolvers_of
  intro s hs
  obtain ⟨i, hi⟩ := List.mem_iff_getElem?.mp hs
  obtain ⟨s', -, h2⟩ := setSolvers_get' hss hi
  obtain ⟨tf, x, -, hx, hl, -⟩ := setPars_ok (hc s hs) h2
  obtain ⟨x', hx', hl'⟩ := run_len s.tf y z x hz hx
  exact setPars_of hx' (by rw [amp_len _ (ha s hs), hl', ← amp_len _ (ha s hs), hl])

/-- **C55 (partial)** The Jacobian returned by `wrapped_jac_function` is the derivative of the cost vector returned by
`wrapped_cost_functions` with respect to every single optimisation parameter, through every transfer function whose matrices fit its grid (as after `set_times` on an object from a
constructor, `usable_fits`), every amplitude function acting on each time step separately, and every cost function whose `grad` is the derivative of its
`costs` by the control amplitudes.  Missing: custom amplitude functions that mix time steps, for which the claim is false
(`c55_violated`); `numeric_jacobian=True` is the subject of C57. -/
theorem c55_chain_rule_partial (sim sim' : Sim p) (y : Pulse ℝ p) (J : List (List (Fin p → ℝ)))
    (hnum : sim.numericJacobian = false) (hfit : ∀ s ∈ sim.solvers, s.tf.Fits) (hc : ∀ s ∈ sim.solvers, s.Coherent) (ha : ∀ s ∈ sim.solvers, s.amp.Correct)
    (hF : ∀ F ∈ sim.costFuncs, ∀ s, sim.solvers[F.solver]? = some s → F.Correct s)
    (hJ : sim.wrappedJac (some y) = .ok (sim', J)) (t : Nat) (ht : t < y.length) (j : Fin p) :
    J.length = y.length ∧ ∃ C : ℝ → List ℝ, (∀ h, ∃ sim'', sim.wrappedCosts (some (shift y t j h)) = .ok (sim'', C h)) ∧
      (∀ h, (C h).length = (J.getD t []).length) ∧
      ∀ i, HasDerivAt (fun h => (C h).getD i 0) ((J.getD t []).getD i 0 j) 0 := by
  unfold Sim.wrappedJac at hJ
  rw [hnum] at hJ
  simp only [Sim.given] at hJ
  obtain ⟨y', hy', hJ⟩ := TF.bind_ok hJ
  simp only [Except.ok.injEq] at hy'
  subst hy'
  obtain ⟨ss, hss, hJ⟩ := TF.bind_ok hJ
  obtain ⟨Js, hJs, hJ⟩ := TF.bind_ok hJ
  obtain ⟨total, htot, hJ⟩ := TF.bind_ok hJ
  simp only [pure, Except.pure, Except.ok.injEq, Prod.mk.injEq] at hJ
  obtain ⟨-, rfl⟩ := hJ
  obtain ⟨l1, l2, V, hV, hD⟩ := jacLoop_deriv sim.solvers ss hfit hc ha y hss t ht j sim.costFuncs hF Js hJs
  obtain ⟨c1, c2⟩ := concatenate1_ok htot
  have hne : Js ≠ [] := by
    rintro rfl
    simp [Sim.concatenate1] at htot
  refine ⟨?_, fun h => (V h).flatten, ?_, ?_, ?_⟩
  · obtain ⟨J', hJ'⟩ := List.exists_mem_of_ne_nil _ hne
    rw [← c1 J' hJ', l1 J' hJ']
  · intro h
    obtain ⟨ss', hss'⟩ := setSolvers_shift sim.solvers ss hc ha y (shift y t j h) (shift_length _ _ _ _) hss
    have hv := hV h ss' hss'
    have hvne : V h ≠ [] := by
      intro h0
      rw [h0] at hv
      cases hfs : sim.costFuncs with
      | nil =>
        rw [hfs] at l2
        exact hne (List.length_eq_zero_iff.mp l2)
      | cons F Fs =>
        rw [hfs] at hv
        simp only [Sim.costLoop] at hv
        obtain ⟨a, -, hv⟩ := TF.bind_ok hv
        obtain ⟨b, -, hv⟩ := TF.bind_ok hv
        obtain ⟨c, -, hv⟩ := TF.bind_ok hv
        simp [pure, Except.pure] at hv
    refine ⟨{ sim with solvers := ss' }, ?_⟩
    have hcat : Sim.concatenate0 (V h) = .ok (V h).flatten := by
      cases hVh : V h with
      | nil => exact absurd hVh hvne
      | cons a l => rfl
    simp [Sim.wrappedCosts, Sim.given, hss', hv, hcat, bind, Except.bind, pure, Except.pure]
  · intro h
    rw [c2 t]
    exact hD.1 h
  · intro i
    rw [c2 t]
    exact hD.2 i

/-- **C55** A pulse for which the amplitudes of the first solver do not have one row per time step is rejected with ValueError, by
the costs and by the Jacobian; errors of its transfer function are passed on. -/
theorem c55_rejects (sim : Sim p) (s : SolverObj p) (ss : List (SolverObj p)) (y : Pulse ℝ p) (hs : sim.solvers = s :: ss)
    (hnew : s.optPars ≠ some y) (hnum : sim.numericJacobian = false) :
    (∀ x, s.tf.run y = .ok x → (s.amp.call x).length ≠ s.nTimes →
      sim.wrappedCosts (some y) = .error .valueError ∧ sim.wrappedJac (some y) = .error .valueError) ∧
    (∀ e, s.tf.run y = .error e → sim.wrappedCosts (some y) = .error e ∧ sim.wrappedJac (some y) = .error e) := by
  have hset : ∀ e, s.setPars y = .error e → sim.wrappedCosts (some y) = .error e ∧ sim.wrappedJac (some y) = .error e := by
    intro e he
    constructor
    · simp [Sim.wrappedCosts, Sim.given, hs, Sim.setSolvers, he, bind, Except.bind]
    · simp [Sim.wrappedJac, hnum, Sim.given, hs, Sim.setSolvers, he, bind, Except.bind]
  refine ⟨fun x hx hl => hset _ ?_, fun e he => hset _ ?_⟩
  · obtain ⟨t', ht⟩ := run_call hx
    unfold SolverObj.setPars
    rw [if_neg hnew, ht]
    simp only [bind, Except.bind, if_neg hl]
  · unfold SolverObj.setPars
    rw [if_neg hnew]
    unfold TF.run at he
    cases hc : s.tf.call y with
    | error e' =>
      rw [hc] at he
      simp only [Except.map, Except.error.injEq] at he
      subst he
      rfl
    | ok v => rw [hc] at he; simp [Except.map] at he

/-- The hypothesis of C55 on cost functions in the usual terms: a differentiable function of the amplitudes (as an array of
`n` rows) whose gradient array is its total derivative. -/
theorem costFn_correct_of_hasFDerivAt (F : CostFn p) (s : SolverObj p) (f : Nat)
    (φ : (Fin s.nTimes → Fin s.c → ℝ) → Fin f → ℝ) (g : (Fin s.nTimes → Fin s.c → ℝ) → Fin s.nTimes → Fin f → Fin s.c → ℝ)
    (hcost : ∀ tf o u, u.length = s.nTimes →
      F.costs (s.withAmps tf o u) = .ok (List.ofFn (φ fun t => rowAt u t)))
    (hgrad : ∀ tf o u, u.length = s.nTimes →
      F.grad (s.withAmps tf o u) = .ok (.full f (List.ofFn (g fun t => rowAt u t))))
    (hd : ∀ U i, ∃ L : (Fin s.nTimes → Fin s.c → ℝ) →L[ℝ] ℝ, HasFDerivAt (fun U => φ U i) L U ∧
      ∀ V, L V = ∑ t, ∑ k, g U t i k * V t k) : F.Correct s := by
  refine ⟨fun u => List.ofFn (φ fun t => rowAt u t), hcost, ?_⟩
  intro tf o u jac hu hj
  rw [hgrad tf o u hu] at hj
  simp only [Except.ok.injEq] at hj
  subst hj
  refine ⟨by simp [Jac.expand, hu], fun v _ => by simp [Jac.expand], ?_⟩
  intro w w' h₀ hw hcd i
  simp only [Jac.expand] at i ⊢
  obtain ⟨L, hL, hLV⟩ := hd (fun t => rowAt u t) i
  have hw' : w'.length = s.nTimes := by rw [← hcd.len h₀, hw, hu]
  have h1 : HasDerivAt (fun h => (fun t : Fin s.nTimes => rowAt (w h) t)) (fun t => rowAt w' t) h₀ :=
    hasDerivAt_pi.mpr fun t => hasDerivAt_pi.mpr fun k => hcd.deriv t k
  subst hw
  have h2 := hL.comp_hasDerivAt h₀ h1
  rw [hLV] at h2
  have e1 : (fun h => (List.ofFn (φ fun t => rowAt (w h) t)).getD i 0) = (fun U => φ U i) ∘ fun h (t : Fin s.nTimes) => rowAt (w h) t := by
    funext h
    rw [List.getD_eq_getElem _ _ (by simp)]
    simp
  rw [e1]
  refine h2.congr_deriv ?_
  rw [pairing_eq_sum _ _ _ s.nTimes (Or.inl (by simp)), Finset.sum_range]
  refine Finset.sum_congr rfl fun t _ => Finset.sum_congr rfl fun k _ => ?_
  congr 1
  rw [rowAt_lt _ _ (by simp)]
  simp

/-! ### A non-trivial case of C55 -/

namespace Ex55

/-- Two time steps, three transferred steps. -/
noncomputable def base : Base ℝ :=
  { bound := none, oversampling := 1, numY := 2, yTimes := some [1, 1], numX := 3, xTimes := some [1, 1, 1] }

/-- A matrix transfer function with an offset. -/
noncomputable def tf : TF ℝ 1 :=
  .matrix base (some 5) (fun _ => .error .notImplementedError) (some { nx := 3, ny := 2, val := fun i j _ => i + 2 * j })

noncomputable def solver : SolverObj 1 :=
  { c := 1, tf := tf, amp := .unary Real.sin Real.cos, nTimes := 3, optPars := none, amps := none }

/-- Sum of the squared amplitudes. -/
noncomputable def cost : CostFn 1 :=
  { solver := 0, label := ["power"]
    costs := fun s => match s.amps with
      | none => .error .typeError
      | some u => .ok [(u.map fun r => ∑ k, r k ^ 2).sum]
    grad := fun s => match s.amps with
      | none => .error .typeError
      | some u => .ok (.flat (u.map fun r k => 2 * r k)) }

noncomputable def sim : Sim 1 :=
  { solvers := [solver], costFuncs := [cost, cost], pulse := none, numTimes := none, numCtrl := none, numericJacobian := false }

theorem sum_eq {c : Nat} (u : Pulse ℝ c) : (u.map fun r => ∑ k, r k ^ 2).sum =
    ∑ t ∈ Finset.range u.length, ∑ k, rowAt u t k ^ 2 := by
  induction u with
  | nil => simp
  | cons a u ih =>
    rw [List.map_cons, List.sum_cons, ih, List.length_cons, Finset.sum_range_succ']
    simp only [rowAt, List.getD_cons_succ, List.getD_cons_zero]
    rw [add_comm]

theorem cost_correct : cost.Correct solver := by
  refine ⟨fun u => [(u.map fun r => ∑ k, r k ^ 2).sum], fun _ _ _ _ => rfl, ?_⟩
  intro tf o u jac hu hj
  simp only [cost, Except.ok.injEq] at hj
  subst hj
  refine ⟨by simp [Jac.expand], fun _ _ => rfl, ?_⟩
  intro w w' h₀ hw hcd i
  simp only [Jac.expand] at i ⊢
  have hi : (i : Nat) = 0 := by omega
  simp only [hi, List.getD_cons_zero]
  have e : (fun h => ((w h).map fun r => ∑ k, r k ^ 2).sum) = fun h => ∑ t ∈ Finset.range 3, ∑ k, rowAt (w h) t k ^ 2 := by
    funext h
    rw [sum_eq]
    have : (w h).length = 3 := by rw [hcd.len h, ← hcd.len h₀, hw, hu]; rfl
    rw [this]
  have h3 : u.length = 3 := hu
  have hrow : ∀ t k, t < 3 → rowAt (List.map (fun (r : Fin solver.c → ℝ) (_ : Fin 1) => r) (u.map fun r k => 2 * r k)) t i k =
      2 * rowAt u t k := by
    intro t k ht
    have hlt : t < u.length := by omega
    rw [rowAt_lt u t hlt, rowAt_lt _ _ (by rw [List.length_map, List.length_map]; exact hlt), List.getElem_map, List.getElem_map]
  rw [e, pairing_eq_sum _ _ _ 3 (Or.inl (by rw [List.length_map, List.length_map]; exact h3.le))]
  apply HasDerivAt.fun_sum
  intro t ht
  apply HasDerivAt.fun_sum
  intro k _
  have h1 := (hcd.deriv t k).fun_pow 2
  refine h1.congr_deriv ?_
  rw [hrow t k (Finset.mem_range.mp ht), hw]
  simp

example : (∀ s ∈ sim.solvers, s.tf.Fits) ∧ (∀ s ∈ sim.solvers, s.Coherent) ∧ (∀ s ∈ sim.solvers, s.amp.Correct) ∧
    (∀ F ∈ sim.costFuncs, ∀ s, sim.solvers[F.solver]? = some s → F.Correct s) ∧
    ∃ sim' J, sim.wrappedJac (some [fun _ => 1, fun _ => 2]) = .ok (sim', J) := by
  refine ⟨?_, ?_, ?_, ?_, ?_⟩
  · intro s hs
    simp only [sim, List.mem_singleton] at hs
    subst hs
    intro T hT
    simp only [TF.getMatrix, Except.ok.injEq] at hT
    subst hT
    exact ⟨rfl, rfl⟩
  · intro s hs
    simp only [sim, List.mem_singleton] at hs
    subst hs
    intro y hy
    simp [solver] at hy
  · intro s hs
    simp only [sim, List.mem_singleton] at hs
    subst hs
    exact fun r => Real.hasDerivAt_sin r
  · intro F hF s hs
    simp only [sim, List.mem_cons, List.not_mem_nil, or_false, or_self] at hF
    subst hF
    simp only [sim, cost, List.getElem?_cons_zero, Option.some.injEq] at hs
    subst hs
    exact cost_correct
  · simp [Sim.wrappedJac, sim, Sim.given, Sim.setSolvers, SolverObj.setPars, solver, tf, TF.call, TF.checkRows, base, TF.getMatrix,
      Tensor.apply, bind, Except.bind, pure, Except.pure, AmpFunc.call, TF.addOffset, Sim.jacLoop, Sim.solverOf, cost, Sim.jacOf,
      Jac.expand, AmpFunc.chain, TF.grad, Tensor.applyAdj, Sim.concatenate1]

/-- Three rows instead of two, and a solver with another number of time steps. -/
example : sim.wrappedCosts (some [fun _ => 1, fun _ => 2, fun _ => 3]) = .error .indexError ∧
    ({ sim with solvers := [{ solver with nTimes := 4 }] } : Sim 1).wrappedCosts (some [fun _ => 1, fun _ => 2]) = .error .valueError :=
  ⟨((c55_rejects sim solver [] _ rfl (by simp [solver]) rfl).2 _ rfl).1,
    ((c55_rejects _ { solver with nTimes := 4 } [] _ rfl (by simp [solver]) rfl).1 _ rfl (by simp [solver, AmpFunc.call, TF.addOffset])).1⟩

end Ex55

/-! ### C55 is violated by amplitude functions that mix time steps -/

/-- `u[0] = 0`, `u[1] = x[0]` on two steps: a (linear) value function of the whole array, as `CustomAmpFunc` allows. -/
noncomputable def delay (x : Pulse ℝ 1) : Pulse ℝ 1 := [fun _ => 0, rowAt x 0]

/-- The cost `u[1]` and its gradient. -/
noncomputable def delayCost : CostFn 1 :=
  { solver := 0, label := ["u1"]
    costs := fun s => match s.amps with
      | none => .error .typeError
      | some u => .ok [∑ k, rowAt u 1 k]
    grad := fun s => match s.amps with
      | none => .error .typeError
      | some _ => .ok (.flat [fun _ => 0, fun _ => 1]) }

noncomputable def delaySim (d : Pulse ℝ 1 → List (Fin 1 → Fin 1 → ℝ)) : Sim 1 :=
  { solvers := [{ c := 1, tf := .identity (Base.init ℝ none 1), amp := .custom delay d, nTimes := 2, optPars := none, amps := none }]
    costFuncs := [delayCost], pulse := none, numTimes := none, numCtrl := none, numericJacobian := false }

theorem delayCost_correct (d : Pulse ℝ 1 → List (Fin 1 → Fin 1 → ℝ)) : ∀ s ∈ (delaySim d).solvers, delayCost.Correct s := by
  intro s hs
  simp only [delaySim, List.mem_singleton] at hs
  subst hs
  refine ⟨fun u => [∑ k, rowAt u 1 k], fun _ _ _ _ => rfl, ?_⟩
  intro tf o u jac hu hj
  simp only [delayCost, Except.ok.injEq] at hj
  subst hj
  refine ⟨by simp [Jac.expand, hu], fun _ _ => rfl, ?_⟩
  intro w w' h₀ hw hcd i
  simp only [Jac.expand] at i ⊢
  have hi : (i : Nat) = 0 := by omega
  simp only [hi, List.getD_cons_zero]
  rw [pairing_eq_sum _ _ _ 2 (Or.inl (by simp))]
  simp only [Finset.sum_range_succ, Finset.range_zero, Finset.sum_empty, zero_add]
  have := hcd.deriv 1 0
  simpa [rowAt] using this

/-- **C55 is violated** for `CustomAmpFunc` with a value function whose output at a time step depends on another step (the
function receives the whole array, and nothing in the documentation excludes it): whatever derivative function the user
supplies, the Jacobian entry for the first parameter is 0 although the cost is that parameter, with derivative 1. -/
theorem c55_violated (d : Pulse ℝ 1 → List (Fin 1 → Fin 1 → ℝ)) (a b : ℝ) (sim' : Sim 1) (J : List (List (Fin 1 → ℝ)))
    (hJ : (delaySim d).wrappedJac (some [fun _ => a, fun _ => b]) = .ok (sim', J)) :
    (J.getD 0 []).getD 0 0 0 = 0 ∧
    ∃ C : ℝ → List ℝ,
      (∀ h, ∃ sim'', (delaySim d).wrappedCosts (some (shift [fun _ => a, fun _ => b] 0 0 h)) = .ok (sim'', C h)) ∧
      HasDerivAt (fun h => (C h).getD 0 0) 1 0 := by
  constructor
  · simp only [Sim.wrappedJac, delaySim, Sim.given, Sim.setSolvers, SolverObj.setPars, TF.call, bind, Except.bind, pure,
      Except.pure, AmpFunc.call, Sim.jacLoop, Sim.solverOf, delayCost, Sim.jacOf, Jac.expand, AmpFunc.chain, TF.grad, delay,
      reduceCtorEq, if_false, List.length_cons, List.length_nil, if_true, List.getElem?_cons_zero, List.map_cons,
      List.map_nil] at hJ
    split at hJ
    · simp at hJ
    · rename_i v hv
      split at hv
      · simp at hv
      · rename_i w hw
        simp only [Except.ok.injEq] at hv
        subst hv
        simp only [Sim.concatenate1, Except.ok.injEq, Prod.mk.injEq] at hJ
        obtain ⟨-, hJ⟩ := hJ
        split at hw
        · simp at hw
        · rename_i u hu
          split at hu
          · rename_i hl
            simp only [Except.ok.injEq] at hu hw
            match hd : d [fun _ => a, fun _ => b], hl with
            | [d0, d1], _ =>
              rw [hd] at hu
              subst hu
              subst hw
              subst hJ
              simp
          · simp at hu
  · refine ⟨fun h => [a + h], fun h => ?_, by simpa using (hasDerivAt_id' (0 : ℝ)).const_add a⟩
    simp [Sim.wrappedCosts, delaySim, Sim.given, Sim.setSolvers, SolverObj.setPars, TF.call, bind, Except.bind, pure,
      Except.pure, AmpFunc.call, Sim.costLoop, Sim.solverOf, delayCost, Sim.concatenate0, delay, shift, rowAt]

/-- The hypothesis of `c55_violated` is met by every derivative function of the documented shape. -/
example (d0 d1 : Fin 1 → Fin 1 → ℝ) (a b : ℝ) :
    ∃ sim' J, (delaySim fun _ => [d0, d1]).wrappedJac (some [fun _ => a, fun _ => b]) = .ok (sim', J) := by
  simp [Sim.wrappedJac, delaySim, Sim.given, Sim.setSolvers, SolverObj.setPars, TF.call, bind, Except.bind, pure,
    Except.pure, AmpFunc.call, Sim.jacLoop, Sim.solverOf, delayCost, Sim.jacOf, Jac.expand, AmpFunc.chain, TF.grad, delay,
    Sim.concatenate1]

/-! ## C56 -/

theorem costLoop_get {ss : List (SolverObj p)} {Fs : List (CostFn p)} {vals : List (List ℝ)}
    (h : Sim.costLoop ss Fs = .ok vals) : vals.length = Fs.length ∧ ∀ (k : Nat) (F : CostFn p), Fs[k]? = some F →
      ∃ s v, ss[F.solver]? = some s ∧ F.costs s = .ok v ∧ vals[k]? = some v := by
  induction Fs generalizing vals with
  | nil =>
    simp only [Sim.costLoop, Except.ok.injEq] at h
    subst h
    simp
  | cons F Fs ih =>
    simp only [Sim.costLoop] at h
    obtain ⟨s, hs, h⟩ := TF.bind_ok h
    obtain ⟨v, hv, h⟩ := TF.bind_ok h
    obtain ⟨rest, hr, h⟩ := TF.bind_ok h
    simp only [pure, Except.pure, Except.ok.injEq] at h
    subst h
    obtain ⟨i1, i2⟩ := ih hr
    refine ⟨by simp [i1], fun k F' hk => ?_⟩
    cases k with
    | zero =>
      simp only [List.getElem?_cons_zero, Option.some.injEq] at hk
      subst hk
      refine ⟨s, v, ?_, hv, rfl⟩
      unfold Sim.solverOf at hs
      cases e : ss[F.solver]? with
      | none => simp [e] at hs
      | some q => simpa [e] using hs
    | succ k => simpa using i2 k F' (by simpa using hk)

theorem jacLoop_get {ss : List (SolverObj p)} {y : Pulse ℝ p} {Fs : List (CostFn p)} {vals : List (List (List (Fin p → ℝ)))}
    (h : Sim.jacLoop ss y Fs = .ok vals) : vals.length = Fs.length ∧ ∀ (k : Nat) (F : CostFn p), Fs[k]? = some F →
      ∃ s v, ss[F.solver]? = some s ∧ Sim.jacOf F s y = .ok v ∧ vals[k]? = some v := by
  induction Fs generalizing vals with
  | nil =>
    simp only [Sim.jacLoop, Except.ok.injEq] at h
    subst h
    simp
  | cons F Fs ih =>
    simp only [Sim.jacLoop] at h
    obtain ⟨s, hs, h⟩ := TF.bind_ok h
    obtain ⟨v, hv, h⟩ := TF.bind_ok h
    obtain ⟨rest, hr, h⟩ := TF.bind_ok h
    simp only [pure, Except.pure, Except.ok.injEq] at h
    subst h
    obtain ⟨i1, i2⟩ := ih hr
    refine ⟨by simp [i1], fun k F' hk => ?_⟩
    cases k with
    | zero =>
      simp only [List.getElem?_cons_zero, Option.some.injEq] at hk
      subst hk
      refine ⟨s, v, ?_, hv, rfl⟩
      unfold Sim.solverOf at hs
      cases e : ss[F.solver]? with
      | none => simp [e] at hs
      | some q => simpa [e] using hs
    | succ k => simpa using i2 k F' (by simpa using hk)

/-- Entry `i` of block `k` of a concatenation. -/
theorem flatten_get {α : Type} (l : List (List α)) (k i : Nat) (v : List α) (hk : l[k]? = some v) (hi : i < v.length) :
    l.flatten[(l.take k).flatten.length + i]? = v[i]? := by
  induction l generalizing k with
  | nil => simp at hk
  | cons a l ih =>
    cases k with
    | zero =>
      simp only [List.getElem?_cons_zero, Option.some.injEq] at hk
      subst hk
      simp [List.getElem?_append_left hi]
    | succ k =>
      simp only [List.take_succ_cons, List.flatten_cons, List.length_append]
      rw [List.getElem?_append_right (by omega)]
      have : a.length + (List.take k l).flatten.length + i - a.length = (List.take k l).flatten.length + i := by omega
      rw [this]
      exact ih k (by simpa using hk)

/-- Specification: the position at which the labels of cost function `k` start. -/
def offset (Fs : List (CostFn p)) (k : Nat) : Nat := ((Fs.take k).map fun F => F.label.length).sum

theorem offset_eq {α : Type} (Fs : List (CostFn p)) (vals : List (List α)) (hl : vals.length = Fs.length)
    (h : ∀ (k : Nat) (F : CostFn p) (v : List α), Fs[k]? = some F → vals[k]? = some v → v.length = F.label.length) (k : Nat) :
    (vals.take k).flatten.length = offset Fs k := by
  induction k generalizing Fs vals with
  | zero => simp [offset]
  | succ k ih =>
    cases Fs with
    | nil =>
      have : vals = [] := List.length_eq_zero_iff.mp hl
      subst this
      simp [offset]
    | cons F Fs =>
      cases vals with
      | nil => simp at hl
      | cons v vals =>
        have h0 := h 0 F v rfl rfl
        have h1 := ih Fs vals (by simpa using hl) fun k F v hF hv => h (k + 1) F v (by simpa using hF) (by simpa using hv)
        simp only [List.take_succ_cons, List.flatten_cons, List.length_append, h1, h0, offset, List.map_cons, List.sum_cons]

/-- **C56** Entry `i` of the values of the `k`-th cost function stands at the position of its `i`-th label, both in the vector
of costs and in `cost_indices`, when every cost function returns as many values as it has labels; nothing else is returned. -/
theorem c56_cost_order (sim sim' : Sim p) (pulse : Option (Pulse ℝ p)) (costs : List ℝ)
    (h : sim.wrappedCosts pulse = .ok (sim', costs))
    (hlab : ∀ F ∈ sim.costFuncs, ∀ s v, F.costs s = .ok v → v.length = F.label.length) :
    costs.length = sim.costIndices.length ∧ sim'.costFuncs = sim.costFuncs ∧
    ∀ (k : Nat) (F : CostFn p), sim.costFuncs[k]? = some F → ∃ s v, sim'.solvers[F.solver]? = some s ∧ F.costs s = .ok v ∧
      ∀ i < F.label.length, costs[offset sim.costFuncs k + i]? = v[i]? ∧
        sim.costIndices[offset sim.costFuncs k + i]? = F.label[i]? := by
  unfold Sim.wrappedCosts at h
  obtain ⟨y, hy, h⟩ := TF.bind_ok h
  obtain ⟨ss, hss, h⟩ := TF.bind_ok h
  obtain ⟨vals, hvals, h⟩ := TF.bind_ok h
  obtain ⟨r, hr, h⟩ := TF.bind_ok h
  simp only [pure, Except.pure, Except.ok.injEq, Prod.mk.injEq] at h
  obtain ⟨rfl, rfl⟩ := h
  have hr' := concatenate0_ok hr
  subst hr'
  obtain ⟨l1, l2⟩ := costLoop_get hvals
  have hlen : ∀ (k : Nat) (F : CostFn p) (v : List ℝ), sim.costFuncs[k]? = some F → vals[k]? = some v → v.length = F.label.length := by
    intro k F v hk hv
    obtain ⟨s, v', -, h2, h3⟩ := l2 k F hk
    rw [hv] at h3
    simp only [Option.some.injEq] at h3
    subst h3
    exact hlab F (List.mem_of_getElem? hk) s v h2
  have hlabels : ∀ (k : Nat) (F : CostFn p) (v : List String), sim.costFuncs[k]? = some F → (sim.costFuncs.map CostFn.label)[k]? = some v →
      v.length = F.label.length := by
    intro k F v hk hv
    rw [List.getElem?_map, hk] at hv
    simp only [Option.map_some, Option.some.injEq] at hv
    rw [← hv]
  refine ⟨?_, rfl, ?_⟩
  · have e1 := offset_eq sim.costFuncs vals l1 hlen vals.length
    have e2 := offset_eq sim.costFuncs (sim.costFuncs.map CostFn.label) (by simp) hlabels vals.length
    rw [List.take_length] at e1
    rw [List.take_of_length_le (by simp [l1])] at e2
    exact e1.trans e2.symm
  · intro k F hk
    obtain ⟨s, v, h1, h2, h3⟩ := l2 k F hk
    refine ⟨s, v, h1, h2, fun i hi => ⟨?_, ?_⟩⟩
    · rw [← offset_eq sim.costFuncs vals l1 hlen k]
      exact flatten_get vals k i v h3 (by rw [hlen k F v hk h3]; exact hi)
    · rw [← offset_eq sim.costFuncs (sim.costFuncs.map CostFn.label) (by simp) hlabels k]
      exact flatten_get _ k i F.label (by simp [hk]) hi

/-- **C56** The Jacobian uses the same positions on its cost axis, at every time step. -/
theorem c56_jacobian_order (sim sim' : Sim p) (y : Pulse ℝ p) (J : List (List (Fin p → ℝ)))
    (hnum : sim.numericJacobian = false) (h : sim.wrappedJac (some y) = .ok (sim', J))
    (hlab : ∀ F ∈ sim.costFuncs, ∀ s jac, F.grad s = .ok jac → jac.expand.1 = F.label.length) :
    ∀ (k : Nat) (F : CostFn p), sim.costFuncs[k]? = some F → ∃ s v, sim'.solvers[F.solver]? = some s ∧
      Sim.jacOf F s y = .ok v ∧ v.length = J.length ∧
      ∀ t < J.length, ∀ i < F.label.length, (J.getD t [])[offset sim.costFuncs k + i]? = (v.getD t [])[i]? := by
  unfold Sim.wrappedJac at h
  rw [hnum] at h
  simp only [Sim.given] at h
  obtain ⟨y', hy', h⟩ := TF.bind_ok h
  simp only [Except.ok.injEq] at hy'
  subst hy'
  obtain ⟨ss, hss, h⟩ := TF.bind_ok h
  obtain ⟨vals, hvals, h⟩ := TF.bind_ok h
  obtain ⟨r, hr, h⟩ := TF.bind_ok h
  simp only [pure, Except.pure, Except.ok.injEq, Prod.mk.injEq] at h
  obtain ⟨rfl, rfl⟩ := h
  obtain ⟨c1, c2⟩ := concatenate1_ok hr
  obtain ⟨l1, l2⟩ := jacLoop_get hvals
  have hrow : ∀ (k : Nat) (F : CostFn p) (v : List (List (Fin p → ℝ))), sim.costFuncs[k]? = some F → vals[k]? = some v → ∀ t < v.length, (v.getD t []).length = F.label.length := by
    intro k F v hk hv t ht
    obtain ⟨s, v', -, h2, h3⟩ := l2 k F hk
    rw [hv] at h3
    simp only [Option.some.injEq] at h3
    subst h3
    unfold Sim.jacOf at h2
    obtain ⟨jac, hj, h2⟩ := TF.bind_ok h2
    obtain ⟨⟨_, _⟩, -, h2⟩ := TF.bind_ok h2
    obtain ⟨_, -, h2⟩ := TF.bind_ok h2
    obtain ⟨⟨_, _⟩, -, h2⟩ := TF.bind_ok h2
    simp only [pure, Except.pure, Except.ok.injEq] at h2
    rw [List.getD_eq_getElem _ _ ht]
    subst h2
    simp [hlab F (List.mem_of_getElem? hk) s jac hj]
  intro k F hk
  obtain ⟨s, v, h1, h2, h3⟩ := l2 k F hk
  refine ⟨s, v, h1, h2, c1 v (List.mem_of_getElem? h3), fun t ht i hi => ?_⟩
  rw [c2 t]
  have hl' : ∀ (k : Nat) (F : CostFn p) (w : List (Fin p → ℝ)), sim.costFuncs[k]? = some F → (vals.map fun a => a.getD t [])[k]? = some w → w.length = F.label.length := by
    intro k F w hk hw
    rw [List.getElem?_map] at hw
    cases e : vals[k]? with
    | none => simp [e] at hw
    | some a =>
      simp only [e, Option.map_some, Option.some.injEq] at hw
      subst hw
      exact hrow k F a hk e t (by rw [c1 a (List.mem_of_getElem? e)]; exact ht)
  rw [← offset_eq sim.costFuncs (vals.map fun a => a.getD t []) (by simp [l1]) hl' k]
  exact flatten_get _ k i _ (by simp [h3]) (by
    rw [hrow k F v hk h3 t (by rw [c1 v (List.mem_of_getElem? h3)]; exact ht)]; exact hi)

/-- **C56** A simulator without cost functions raises (`np.concatenate` of an empty list), it does not return an empty vector. -/
theorem c56_no_costs (sim : Sim p) (pulse : Option (Pulse ℝ p)) (h : sim.costFuncs = []) :
    ∃ e, sim.wrappedCosts pulse = .error e := by
  unfold Sim.wrappedCosts
  rw [h]
  simp only [bind, Except.bind]
  cases sim.given pulse with
  | error e => exact ⟨e, rfl⟩
  | ok y =>
    simp only
    cases Sim.setSolvers sim.solvers y with
    | error e => exact ⟨e, rfl⟩
    | ok ss => exact ⟨_, rfl⟩

/-- Hypotheses of C56 are met by the simulator of `Ex55` (two cost functions with one label each). -/
example : (∃ sim' costs, Ex55.sim.wrappedCosts (some [fun _ => 1, fun _ => 2]) = .ok (sim', costs)) ∧
    ∀ F ∈ Ex55.sim.costFuncs, ∀ s v, F.costs s = .ok v → v.length = F.label.length := by
  constructor
  · simp [Sim.wrappedCosts, Ex55.sim, Sim.given, Sim.setSolvers, SolverObj.setPars, Ex55.solver, Ex55.tf, TF.call, TF.checkRows,
      Ex55.base, TF.getMatrix, Tensor.apply, bind, Except.bind, pure, Except.pure, AmpFunc.call, TF.addOffset, Sim.costLoop,
      Sim.solverOf, Ex55.cost, Sim.concatenate0]
  · intro F hF s v hv
    simp only [Ex55.sim, List.mem_cons, List.not_mem_nil, or_false, or_self] at hF
    subst hF
    simp only [Ex55.cost] at hv ⊢
    cases e : s.amps with
    | none => simp [e] at hv
    | some u =>
      simp only [e, Except.ok.injEq] at hv
      rw [← hv]; rfl

end Verif.Sim
