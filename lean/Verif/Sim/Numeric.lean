import Verif.Sim.Thms

/-!
# Property theorems C57 and C58: finite differences and the pulse attribute
-/

namespace Verif.Sim
open Verif Verif.Transfer

variable {p : Nat}

/-- Specification: the solvers are consistent and every cost function is a function of the control amplitudes of its solver. -/
structure Tame (sim : Sim p) : Prop where
  coherent : ∀ s ∈ sim.solvers, s.Coherent
  amplitudes : ∀ F ∈ sim.costFuncs, ∀ s, sim.solvers[F.solver]? = some s →
    ∃ φ : Pulse ℝ s.c → Except PyErr (List ℝ), ∀ tf o u, F.costs (s.withAmps tf o u) = φ u

/-- Two evaluations of a solver object with the same pulse lead to the same amplitudes. -/
theorem setPars_twice {s s' s₁ : SolverObj p} {w z : Pulse ℝ p} (hc : s.Coherent) (hw : s.setPars w = .ok s')
    (hz : s.setPars z = .ok s₁) : ∃ s₂, s'.setPars z = .ok s₂ ∧ ∃ tf₁ tf₂ u, s₁ = s.withAmps tf₁ (some z) u ∧
      s₂ = s.withAmps tf₂ (some z) u := by
  have hc' := setPars_coherent hc hw
  obtain ⟨tf', x', hs', hx', hl', rfl⟩ := setPars_ok hc hw
  obtain ⟨tf₁, x, hs, hx, hl, rfl⟩ := setPars_ok hc hz
  have hxz : (s.withAmps tf' (some w) (s.amp.call x')).tf.run z = .ok x := by
    show tf'.run z = _
    rw [← hs'.2.1]; exact hx
  obtain ⟨s₂, h₂⟩ := setPars_of hxz hl
  obtain ⟨tf₂, x₂, -, hx₂, -, rfl⟩ := setPars_ok hc' h₂
  rw [hxz] at hx₂
  simp only [Except.ok.injEq] at hx₂
  subst hx₂
  exact ⟨_, h₂, tf₁, tf₂, s.amp.call x, rfl, rfl⟩

theorem setSolvers_twice {ss ss' ss₁ : List (SolverObj p)} {w z : Pulse ℝ p} (hc : ∀ s ∈ ss, s.Coherent)
    (hw : Sim.setSolvers ss w = .ok ss') (hz : Sim.setSolvers ss z = .ok ss₁) :
    ∃ ss₂, Sim.setSolvers ss' z = .ok ss₂ ∧ ∀ (i : Nat) s, ss[i]? = some s → ∃ tf₁ tf₂ u,
      ss₁[i]? = some (s.withAmps tf₁ (some z) u) ∧ ss₂[i]? = some (s.withAmps tf₂ (some z) u) := by
  induction ss generalizing ss' ss₁ with
  | nil =>
    simp only [Sim.setSolvers, Except.ok.injEq] at hw hz
    subst hw; subst hz
    exact ⟨[], rfl, by simp⟩
  | cons s ss ih =>
    simp only [Sim.setSolvers] at hw hz
    obtain ⟨a, ha, hw⟩ := TF.bind_ok hw
    obtain ⟨r, hr, hw⟩ := TF.bind_ok hw
    obtain ⟨a₁, ha₁, hz⟩ := TF.bind_ok hz
    obtain ⟨r₁, hr₁, hz⟩ := TF.bind_ok hz
    simp only [pure, Except.pure, Except.ok.injEq] at hw hz
    subst hw; subst hz
    obtain ⟨s₂, h1, h2⟩ := setPars_twice (hc s (by simp)) ha ha₁
    obtain ⟨r₂, h3, h4⟩ := ih (fun q hq => hc q (by simp [hq])) hr hr₁
    refine ⟨s₂ :: r₂, by simp [Sim.setSolvers, h1, h3, bind, Except.bind, pure, Except.pure], ?_⟩
    intro i q hq
    cases i with
    | zero =>
      simp only [List.getElem?_cons_zero, Option.some.injEq] at hq
      subst hq
      obtain ⟨tf₁, tf₂, u, e1, e2⟩ := h2
      exact ⟨tf₁, tf₂, u, by simp [e1], by simp [e2]⟩
    | succ i =>
      obtain ⟨tf₁, tf₂, u, e1, e2⟩ := h4 i q (by simpa using hq)
      exact ⟨tf₁, tf₂, u, by simpa using e1, by simpa using e2⟩

theorem setSolvers_length {ss ss' : List (SolverObj p)} {y : Pulse ℝ p} (h : Sim.setSolvers ss y = .ok ss') :
    ss'.length = ss.length := (setSolvers_forall₂ h).length_eq.symm

/-- Evaluating a simulator does not change what it returns later. -/
theorem costs_stable (sim sim' sim₁ : Sim p) (w z : Pulse ℝ p) (C C₁ : List ℝ) (ht : Tame sim)
    (hw : sim.wrappedCosts (some w) = .ok (sim', C)) (hz : sim.wrappedCosts (some z) = .ok (sim₁, C₁)) :
    ∃ sim₂, sim'.wrappedCosts (some z) = .ok (sim₂, C₁) := by
  unfold Sim.wrappedCosts at hw hz
  simp only [Sim.given] at hw hz
  obtain ⟨w', e, hw⟩ := TF.bind_ok hw
  simp only [Except.ok.injEq] at e
  subst e
  obtain ⟨z', e, hz⟩ := TF.bind_ok hz
  simp only [Except.ok.injEq] at e
  subst e
  obtain ⟨ss, hss, hw⟩ := TF.bind_ok hw
  obtain ⟨ss₁, hss₁, hz⟩ := TF.bind_ok hz
  obtain ⟨v, -, hw⟩ := TF.bind_ok hw
  obtain ⟨v₁, hv₁, hz⟩ := TF.bind_ok hz
  obtain ⟨r, -, hw⟩ := TF.bind_ok hw
  obtain ⟨r₁, hr₁, hz⟩ := TF.bind_ok hz
  simp only [pure, Except.pure, Except.ok.injEq, Prod.mk.injEq] at hw hz
  obtain ⟨rfl, rfl⟩ := hw
  obtain ⟨-, rfl⟩ := hz
  obtain ⟨ss₂, hss₂, hrel⟩ := setSolvers_twice ht.coherent hss hss₁
  have hloop : ∀ Fs : List (CostFn p), (∀ F ∈ Fs, F ∈ sim.costFuncs) → ∀ vals, Sim.costLoop ss₁ Fs = .ok vals →
      Sim.costLoop ss₂ Fs = .ok vals := by
    intro Fs
    induction Fs with
    | nil => intro _ vals h; exact h
    | cons F Fs ih =>
      intro hm vals h
      simp only [Sim.costLoop] at h ⊢
      obtain ⟨s₁, h1, h⟩ := TF.bind_ok h
      obtain ⟨v, h2, h⟩ := TF.bind_ok h
      obtain ⟨rest, h3, h⟩ := TF.bind_ok h
      simp only [pure, Except.pure, Except.ok.injEq] at h
      subst h
      obtain ⟨s, hs, -⟩ := setSolvers_get hss₁ h1
      obtain ⟨tf₁, tf₂, u, e1, e2⟩ := hrel _ s hs
      obtain ⟨φ, hφ⟩ := ht.amplitudes F (hm F (by simp)) s hs
      have e3 : s₁ = s.withAmps tf₁ (some z) u := by
        simp only [Sim.solverOf, e1, Except.ok.injEq] at h1
        exact h1.symm
      have h2' : F.costs (s.withAmps tf₂ (some z) u) = .ok v := by
        rw [hφ, ← hφ tf₁ (some z) u, ← e3]; exact h2
      have h4 : Sim.solverOf ss₂ F.solver = .ok (s.withAmps tf₂ (some z) u) := by
        simp [Sim.solverOf, e2]
      rw [h4]
      simp only [bind, Except.bind]
      rw [h2', ih (fun F hF => hm F (by simp [hF])) rest h3]
      rfl
  refine ⟨{ sim with solvers := ss₂ }, ?_⟩
  simp [Sim.wrappedCosts, Sim.given, hss₂, hloop sim.costFuncs (fun F h => h) v₁ hv₁, hr₁, bind, Except.bind, pure, Except.pure]

theorem tame_costs (sim sim' : Sim p) (w : Option (Pulse ℝ p)) (C : List ℝ) (ht : Tame sim)
    (hw : sim.wrappedCosts w = .ok (sim', C)) : Tame sim' ∧ sim'.pulse = sim.pulse := by
  unfold Sim.wrappedCosts at hw
  obtain ⟨w', e, hw⟩ := TF.bind_ok hw
  obtain ⟨ss, hss, hw⟩ := TF.bind_ok hw
  obtain ⟨v, -, hw⟩ := TF.bind_ok hw
  obtain ⟨r, -, hw⟩ := TF.bind_ok hw
  simp only [pure, Except.pure, Except.ok.injEq, Prod.mk.injEq] at hw
  obtain ⟨rfl, rfl⟩ := hw
  refine ⟨⟨setSolvers_coherent ht.coherent hss, ?_⟩, rfl⟩
  intro F hF s' hs'
  have hs'' : Sim.solverOf ss F.solver = .ok s' := by
    have : ss[F.solver]? = some s' := hs'
    simp [Sim.solverOf, this]
  obtain ⟨s, hs, hset⟩ := setSolvers_get hss hs''
  obtain ⟨tf, x, -, -, -, rfl⟩ := setPars_ok (ht.coherent s (List.mem_of_getElem? hs)) hset
  obtain ⟨φ, hφ⟩ := ht.amplitudes F hF s hs
  exact ⟨φ, fun tf o u => hφ tf o u⟩

/-- Specification: the simulator returns the cost vector `C z` for every pulse `z` of `n` steps. -/
structure Evaluates (sim : Sim p) (n : Nat) (C : Pulse ℝ p → List ℝ) : Prop where
  tame : Tame sim
  value : ∀ z : Pulse ℝ p, z.length = n → ∃ sim', sim.wrappedCosts (some z) = .ok (sim', C z)

theorem Evaluates.step {sim : Sim p} {n : Nat} {C : Pulse ℝ p → List ℝ} (h : Evaluates sim n C) (z : Pulse ℝ p)
    (hz : z.length = n) : ∃ sim', sim.wrappedCosts (some z) = .ok (sim', C z) ∧ Evaluates sim' n C ∧ sim'.pulse = sim.pulse := by
  obtain ⟨sim', h1⟩ := h.value z hz
  obtain ⟨h2, h3⟩ := tame_costs sim sim' _ _ h.tame h1
  refine ⟨sim', h1, ⟨h2, fun w hw => ?_⟩, h3⟩
  obtain ⟨sim₁, h4⟩ := h.value w hw
  exact costs_stable sim sim' sim₁ z w _ _ h.tame h1 h4

/-- The difference quotient the code computes. -/
noncomputable def column (C : Pulse ℝ p → List ℝ) (y : Pulse ℝ p) (ε : ℝ) (symmetric : Bool) (e : Nat × Fin p) : List ℝ :=
  match symmetric with
  | true => List.zipWith (fun a b => (a - b) / (2 * ε)) (C (shift y e.1 e.2 ε)) (C (shift y e.1 e.2 (-ε)))
  | false => List.zipWith (fun a b => (a - b) / ε) (C (shift y e.1 e.2 ε)) (C y)

theorem numLoop_eq (y : Pulse ℝ p) (C : Pulse ℝ p → List ℝ) (f : Nat) (hf : ∀ z, z.length = y.length → (C z).length = f)
    (ε : ℝ) (symmetric : Bool) (es : List (Nat × Fin p)) (sim : Sim p) (h : Evaluates sim y.length C) :
    ∃ sim', Sim.numLoop sim y (C y) ε symmetric es = .ok (sim', es.map fun e => (e, column C y ε symmetric e)) ∧
      sim'.pulse = sim.pulse := by
  induction es generalizing sim with
  | nil => exact ⟨sim, rfl, rfl⟩
  | cons e es ih =>
    obtain ⟨t, j⟩ := e
    obtain ⟨sim₁, h1, e1, q1⟩ := h.step (shift y t j ε) (shift_length _ _ _ _)
    have hstep : ∃ sim₂, Sim.numStep sim y (C y) ε symmetric t j = .ok (sim₂, column C y ε symmetric (t, j)) ∧
        Evaluates sim₂ y.length C ∧ sim₂.pulse = sim.pulse := by
      cases symmetric with
      | true =>
        obtain ⟨sim₂, h2, e2, q2⟩ := e1.step (shift y t j (-ε)) (shift_length _ _ _ _)
        refine ⟨sim₂, ?_, e2, q2.trans q1⟩
        simp only [Sim.numStep, plusDelta_eq, minusDelta_eq, h1, h2, bind, Except.bind, Sim.quotient, pure, Except.pure, column]
        rw [if_pos ⟨by rw [hf _ (shift_length _ _ _ _), hf _ rfl], by rw [hf _ (shift_length _ _ _ _), hf _ rfl]⟩]
      | false =>
        refine ⟨sim₁, ?_, e1, q1⟩
        simp only [Sim.numStep, plusDelta_eq, h1, bind, Except.bind, Sim.quotient, pure, Except.pure, column]
        rw [if_pos ⟨by rw [hf _ (shift_length _ _ _ _), hf _ rfl], trivial⟩]
    obtain ⟨sim₂, hs, e2, q2⟩ := hstep
    obtain ⟨sim', h3, q3⟩ := ih sim₂ e2
    exact ⟨sim', by simp [Sim.numLoop, hs, h3, bind, Except.bind, pure, Except.pure], q3.trans q2⟩

theorem assigned_map (es : List (Nat × Fin p)) (q : Nat × Fin p → List ℝ) (t i : Nat) (j : Fin p) (h : (t, j) ∈ es) :
    Sim.assigned (es.map fun e => (e, q e)) t i j = (q (t, j)).getD i 0 := by
  unfold Sim.assigned
  have : (es.map fun e => (e, q e)).find? (fun e => decide (e.1 = (t, j))) = some ((t, j), q (t, j)) := by
    induction es with
    | nil => simp at h
    | cons e es ih =>
      rw [List.map_cons, List.find?_cons]
      by_cases he : e = (t, j)
      · simp [he]
      · simp only [he, decide_false]
        exact ih (by
          rcases List.mem_cons.mp h with h | h
          · exact absurd h.symm he
          · exact h)
  rw [this]

theorem mem_pairs (n t : Nat) (j : Fin p) (h : t < n) : (t, j) ∈ Sim.pairs n p := by
  simp [Sim.pairs, h]

/-- What `numeric_gradient` returns, for every simulator whose costs are a function of the pulse. -/
theorem numericGradient_eq (sim : Sim p) (pulse : Option (Pulse ℝ p)) (y : Pulse ℝ p) (hy : sim.given pulse = .ok y) (f : Nat)
    (Q : Pulse ℝ p → Fin f → ℝ) (h : Evaluates sim y.length fun z => List.ofFn (Q z)) (ε : ℝ) (symmetric : Bool) :
    ∃ sim' J, sim.numericGradient pulse ε symmetric = .ok (sim', J) ∧ sim'.pulse = sim.pulse ∧ J.length = y.length ∧
      (∀ t < y.length, (J.getD t []).length = f) ∧
      ∀ t < y.length, ∀ (i : Fin f) (j : Fin p), (J.getD t []).getD i 0 j = match symmetric with
        | true => (Q (shift y t j ε) i - Q (shift y t j (-ε)) i) / (2 * ε)
        | false => (Q (shift y t j ε) i - Q y i) / ε := by
  obtain ⟨sim₁, h1, e1, q1⟩ := h.step y rfl
  obtain ⟨sim₂, h2, q2⟩ := numLoop_eq y (fun z => List.ofFn (Q z)) f (by simp) ε symmetric (Sim.pairs y.length p) sim₁ e1
  refine ⟨sim₂, List.map (fun t => List.map (fun i j => Sim.assigned (List.map
        (fun e => (e, column (fun z => List.ofFn (Q z)) y ε symmetric e)) (Sim.pairs y.length p)) t i j)
          (List.range (List.ofFn (Q y)).length)) (List.range y.length), ?_, q2.trans q1, ?_, ?_, ?_⟩
  · unfold Sim.numericGradient
    simp only [hy, bind, Except.bind, h1, h2, pure, Except.pure]
  · simp
  · intro t ht
    rw [List.getD_eq_getElem _ _ (by simpa using ht)]
    simp
  · intro t ht i j
    have e : ((List.map (fun t => List.map (fun i j => Sim.assigned (List.map
        (fun e => (e, column (fun z => List.ofFn (Q z)) y ε symmetric e)) (Sim.pairs y.length p)) t i j)
          (List.range (List.ofFn (Q y)).length)) (List.range y.length)).getD t []).getD i 0 j =
        (column (fun z => List.ofFn (Q z)) y ε symmetric (t, j)).getD i 0 := by
      have hrow : ∀ {α : Type} (F : Nat → List α), ((List.range y.length).map F).getD t [] = F t := by
        intro α F
        rw [List.getD_eq_getElem _ _ (by simpa using ht), List.getElem_map, List.getElem_range]
      rw [hrow, List.getD_eq_getElem _ _ (by simp), List.getElem_map, List.getElem_range,
        assigned_map _ _ _ _ _ (mem_pairs _ _ _ ht)]
    rw [e]
    cases symmetric with
    | true =>
      rw [column, List.getD_eq_getElem _ _ (by simp)]
      simp
    | false =>
      rw [column, List.getD_eq_getElem _ _ (by simp)]
      simp

/-- **C57** Forward differences: for costs that are affine in every single parameter, `numeric_gradient` returns the exact
partial derivatives, for every non-zero step width, and leaves the pulse attribute alone. -/
theorem c57_forward (sim : Sim p) (pulse : Option (Pulse ℝ p)) (y : Pulse ℝ p) (hy : sim.given pulse = .ok y) (f : Nat)
    (Q : Pulse ℝ p → Fin f → ℝ) (h : Evaluates sim y.length fun z => List.ofFn (Q z)) (ε : ℝ) (hε : ε ≠ 0)
    (haff : ∀ t < y.length, ∀ (j : Fin p) (i : Fin f), ∃ a b : ℝ, ∀ x, Q (shift y t j x) i = a + b * x) :
    ∃ sim' J, sim.numericGradient pulse ε false = .ok (sim', J) ∧ sim'.pulse = sim.pulse ∧ J.length = y.length ∧
      (∀ t < y.length, (J.getD t []).length = f) ∧
      ∀ t < y.length, ∀ (i : Fin f) (j : Fin p), HasDerivAt (fun x => Q (shift y t j x) i) ((J.getD t []).getD i 0 j) 0 := by
  obtain ⟨sim', J, h1, h2, h3, h4, h5⟩ := numericGradient_eq sim pulse y hy f Q h ε false
  refine ⟨sim', J, h1, h2, h3, h4, fun t ht i j => ?_⟩
  rw [h5 t ht i j]
  obtain ⟨a, b, hab⟩ := haff t ht j i
  have h0 : Q y i = a := by have := hab 0; rw [shift_zero] at this; simpa using this
  simp only [hab, h0]
  have : (a + b * ε - a) / ε = b := by field_simp; ring
  rw [this]
  simpa using ((hasDerivAt_id' (0 : ℝ)).const_mul b).const_add a

/-- **C57** With `numeric_jacobian` the wrapper handed to the optimiser uses forward differences with the default step width, which
is not zero: it returns the exact partial derivatives of such costs. -/
theorem c57_wrapped (sim : Sim p) (hn : sim.numericJacobian = true) (pulse : Option (Pulse ℝ p)) (y : Pulse ℝ p)
    (hy : sim.given pulse = .ok y) (f : Nat) (Q : Pulse ℝ p → Fin f → ℝ) (h : Evaluates sim y.length fun z => List.ofFn (Q z))
    (haff : ∀ t < y.length, ∀ (j : Fin p) (i : Fin f), ∃ a b : ℝ, ∀ x, Q (shift y t j x) i = a + b * x) :
    ∃ sim' J, sim.wrappedJac pulse = .ok (sim', J) ∧ J.length = y.length ∧ (∀ t < y.length, (J.getD t []).length = f) ∧
      ∀ t < y.length, ∀ (i : Fin f) (j : Fin p), HasDerivAt (fun x => Q (shift y t j x) i) ((J.getD t []).getD i 0 j) 0 := by
  obtain ⟨sim', J, h1, -, h2⟩ := c57_forward sim pulse y hy f Q h Sim.defaultEps (by norm_num [Sim.defaultEps]) haff
  exact ⟨sim', J, by rw [Sim.wrappedJac, hn]; exact h1, h2⟩

/-- **C57** Symmetric differences: exact for costs that are quadratic in every single parameter. -/
theorem c57_symmetric (sim : Sim p) (pulse : Option (Pulse ℝ p)) (y : Pulse ℝ p) (hy : sim.given pulse = .ok y) (f : Nat)
    (Q : Pulse ℝ p → Fin f → ℝ) (h : Evaluates sim y.length fun z => List.ofFn (Q z)) (ε : ℝ) (hε : ε ≠ 0)
    (hquad : ∀ t < y.length, ∀ (j : Fin p) (i : Fin f), ∃ a b c : ℝ, ∀ x, Q (shift y t j x) i = a + b * x + c * x ^ 2) :
    ∃ sim' J, sim.numericGradient pulse ε true = .ok (sim', J) ∧ sim'.pulse = sim.pulse ∧ J.length = y.length ∧
      (∀ t < y.length, (J.getD t []).length = f) ∧
      ∀ t < y.length, ∀ (i : Fin f) (j : Fin p), HasDerivAt (fun x => Q (shift y t j x) i) ((J.getD t []).getD i 0 j) 0 := by
  obtain ⟨sim', J, h1, h2, h3, h4, h5⟩ := numericGradient_eq sim pulse y hy f Q h ε true
  refine ⟨sim', J, h1, h2, h3, h4, fun t ht i j => ?_⟩
  rw [h5 t ht i j]
  obtain ⟨a, b, c, hab⟩ := hquad t ht j i
  simp only [hab]
  have : (a + b * ε + c * ε ^ 2 - (a + b * -ε + c * (-ε) ^ 2)) / (2 * ε) = b := by field_simp; ring
  rw [this]
  have hd := (((hasDerivAt_id' (0 : ℝ)).const_mul b).const_add a).fun_add (((hasDerivAt_id' (0 : ℝ)).fun_pow 2).const_mul c)
  simpa using hd

/-- Forward differences are *not* exact for quadratic costs: the step width enters. (So the two modes are not interchangeable.) -/
theorem c57_forward_bias (sim : Sim p) (pulse : Option (Pulse ℝ p)) (y : Pulse ℝ p) (hy : sim.given pulse = .ok y) (f : Nat)
    (Q : Pulse ℝ p → Fin f → ℝ) (h : Evaluates sim y.length fun z => List.ofFn (Q z)) (ε : ℝ) (hε : ε ≠ 0) (t : Nat)
    (ht : t < y.length) (j : Fin p) (i : Fin f) (a b c : ℝ) (hq : ∀ x, Q (shift y t j x) i = a + b * x + c * x ^ 2) :
    ∃ sim' J, sim.numericGradient pulse ε false = .ok (sim', J) ∧ (J.getD t []).getD i 0 j = b + c * ε ∧
      HasDerivAt (fun x => Q (shift y t j x) i) b 0 := by
  obtain ⟨sim', J, h1, h2, h3, h4, h5⟩ := numericGradient_eq sim pulse y hy f Q h ε false
  refine ⟨sim', J, h1, ?_, ?_⟩
  · rw [h5 t ht i j]
    have h0 : Q y i = a := by have := hq 0; rw [shift_zero] at this; simpa using this
    simp only [hq, h0]
    field_simp
    ring
  · simp only [hq]
    have hd := (((hasDerivAt_id' (0 : ℝ)).const_mul b).const_add a).fun_add (((hasDerivAt_id' (0 : ℝ)).fun_pow 2).const_mul c)
    simpa using hd

/-! ### A non-trivial case of C57 -/

namespace Ex57

/-- Identity transfer and amplitude functions; the cost is the sum of the squared amplitudes of two steps. -/
noncomputable def sim : Sim 1 :=
  { solvers := [{ c := 1, tf := .identity (Base.init ℝ none 1), amp := .identity, nTimes := 2, optPars := none, amps := none }]
    costFuncs := [{ Ex55.cost with solver := 0 }], pulse := none, numTimes := none, numCtrl := none, numericJacobian := true }

noncomputable def Q (z : Pulse ℝ 1) (_ : Fin 1) : ℝ := (z.map fun r => ∑ k, r k ^ 2).sum

theorem evaluates : Evaluates sim 2 fun z => List.ofFn (Q z) := by
  refine ⟨⟨?_, ?_⟩, ?_⟩
  · intro s hs y hy
    simp only [sim, List.mem_singleton] at hs
    subst hs
    simp at hy
  · intro F hF s hs
    simp only [sim, List.mem_singleton] at hF
    subst hF
    exact ⟨fun u => .ok [(u.map fun r => ∑ k, r k ^ 2).sum], fun _ _ _ => rfl⟩
  · intro z hz
    simp [Sim.wrappedCosts, sim, Sim.given, Sim.setSolvers, SolverObj.setPars, TF.call, bind, Except.bind, pure, Except.pure,
      AmpFunc.call, Sim.costLoop, Sim.solverOf, Ex55.cost, Sim.concatenate0, hz, Q]

example : ∃ y : Pulse ℝ 1, sim.given (some y) = .ok y ∧ Evaluates sim y.length (fun z => List.ofFn (Q z)) ∧
    ∀ t < y.length, ∀ (j : Fin 1) (i : Fin 1), ∃ a b c : ℝ, ∀ x, Q (shift y t j x) i = a + b * x + c * x ^ 2 := by
  refine ⟨[fun _ => 3, fun _ => 4], rfl, evaluates, ?_⟩
  intro t ht j i
  have hj : j = 0 := Subsingleton.elim _ _
  subst hj
  have : t = 0 ∨ t = 1 := by simp only [List.length_cons, List.length_nil] at ht; omega
  rcases this with rfl | rfl
  · exact ⟨25, 6, 1, fun x => by simp [Q, shift]; ring⟩
  · exact ⟨25, 8, 1, fun x => by simp [Q, shift]; ring⟩

end Ex57

/-! ## C58 -/

/-- A use of the simulator: assigning the attribute `pulse`, evaluating costs or Jacobian (with or without a pulse). -/
inductive Op (p : Nat) where
  | assign (y : Option (Pulse ℝ p))
  | costs (pulse : Option (Pulse ℝ p))
  | jac (pulse : Option (Pulse ℝ p))

/-- Running a use. -/
noncomputable def Op.run (sim : Sim p) : Op p → Except PyErr (Sim p)
  | .assign y => sim.setPulse y
  | .costs pulse => (sim.wrappedCosts pulse).map Prod.fst
  | .jac pulse => (sim.wrappedJac pulse).map Prod.fst

/-- A history of successful uses. -/
inductive History : Sim p → List (Op p) → Sim p → Prop
  | nil (sim) : History sim [] sim
  | cons {sim sim₁ sim₂ op ops} : op.run sim = .ok sim₁ → History sim₁ ops sim₂ → History sim (op :: ops) sim₂

/-- Specification: the last assigned pulse. -/
def lastAssigned (old : Option (Pulse ℝ p)) : List (Op p) → Option (Pulse ℝ p)
  | [] => old
  | .assign y :: ops => lastAssigned y ops
  | _ :: ops => lastAssigned old ops

theorem costs_facts (sim sim' : Sim p) (w : Option (Pulse ℝ p)) (C : List ℝ) (hc : ∀ s ∈ sim.solvers, s.Coherent)
    (hw : sim.wrappedCosts w = .ok (sim', C)) : (∀ s ∈ sim'.solvers, s.Coherent) ∧ sim'.pulse = sim.pulse ∧
      ∃ y, sim.given w = .ok y ∧ ∀ s ∈ sim'.solvers, s.optPars = some y := by
  unfold Sim.wrappedCosts at hw
  obtain ⟨y, hy, hw⟩ := TF.bind_ok hw
  obtain ⟨ss, hss, hw⟩ := TF.bind_ok hw
  obtain ⟨v, -, hw⟩ := TF.bind_ok hw
  obtain ⟨r, -, hw⟩ := TF.bind_ok hw
  simp only [pure, Except.pure, Except.ok.injEq, Prod.mk.injEq] at hw
  obtain ⟨rfl, rfl⟩ := hw
  refine ⟨setSolvers_coherent hc hss, rfl, y, hy, ?_⟩
  intro s' hs'
  obtain ⟨i, hi⟩ := List.mem_iff_getElem?.mp hs'
  have hs'' : Sim.solverOf ss i = .ok s' := by
    have : ss[i]? = some s' := hi
    simp [Sim.solverOf, this]
  obtain ⟨s, hs, hset⟩ := setSolvers_get hss hs''
  obtain ⟨tf, x, -, -, -, rfl⟩ := setPars_ok (hc s (List.mem_of_getElem? hs)) hset
  rfl

theorem numLoop_facts (y : Pulse ℝ p) (central : List ℝ) (ε : ℝ) (symmetric : Bool) (es : List (Nat × Fin p)) (sim sim' : Sim p)
    (cols) (hc : ∀ s ∈ sim.solvers, s.Coherent) (h : Sim.numLoop sim y central ε symmetric es = .ok (sim', cols)) :
    (∀ s ∈ sim'.solvers, s.Coherent) ∧ sim'.pulse = sim.pulse := by
  induction es generalizing sim cols with
  | nil =>
    simp only [Sim.numLoop, Except.ok.injEq, Prod.mk.injEq] at h
    obtain ⟨rfl, -⟩ := h
    exact ⟨hc, rfl⟩
  | cons e es ih =>
    simp only [Sim.numLoop] at h
    obtain ⟨⟨sim₁, q⟩, h1, h⟩ := TF.bind_ok h
    obtain ⟨⟨sim₂, qs⟩, h2, h⟩ := TF.bind_ok h
    simp only [pure, Except.pure, Except.ok.injEq, Prod.mk.injEq] at h
    obtain ⟨rfl, -⟩ := h
    have hstep : (∀ s ∈ sim₁.solvers, s.Coherent) ∧ sim₁.pulse = sim.pulse := by
      unfold Sim.numStep at h1
      obtain ⟨⟨sim₃, fw⟩, h3, h1⟩ := TF.bind_ok h1
      obtain ⟨f1, f2, -⟩ := costs_facts sim sim₃ _ _ hc h3
      cases symmetric with
      | true =>
        obtain ⟨⟨sim₄, bw⟩, h4, h1⟩ := TF.bind_ok h1
        obtain ⟨q', -, h1⟩ := TF.bind_ok h1
        simp only [pure, Except.pure, Except.ok.injEq, Prod.mk.injEq] at h1
        obtain ⟨rfl, -⟩ := h1
        obtain ⟨g1, g2, -⟩ := costs_facts sim₃ sim₄ _ _ f1 h4
        exact ⟨g1, g2.trans f2⟩
      | false =>
        obtain ⟨q', -, h1⟩ := TF.bind_ok h1
        simp only [pure, Except.pure, Except.ok.injEq, Prod.mk.injEq] at h1
        obtain ⟨rfl, -⟩ := h1
        exact ⟨f1, f2⟩
    obtain ⟨i1, i2⟩ := ih sim₁ qs hstep.1 h2
    exact ⟨i1, i2.trans hstep.2⟩

theorem jac_facts (sim sim' : Sim p) (w : Option (Pulse ℝ p)) (J) (hc : ∀ s ∈ sim.solvers, s.Coherent)
    (hw : sim.wrappedJac w = .ok (sim', J)) : (∀ s ∈ sim'.solvers, s.Coherent) ∧ sim'.pulse = sim.pulse := by
  unfold Sim.wrappedJac at hw
  cases hn : sim.numericJacobian with
  | true =>
    rw [hn] at hw
    simp only [Sim.numericGradient] at hw
    obtain ⟨y, hy, hw⟩ := TF.bind_ok hw
    obtain ⟨⟨sim₁, C⟩, h1, hw⟩ := TF.bind_ok hw
    obtain ⟨⟨sim₂, cols⟩, h2, hw⟩ := TF.bind_ok hw
    simp only [pure, Except.pure, Except.ok.injEq, Prod.mk.injEq] at hw
    obtain ⟨rfl, -⟩ := hw
    obtain ⟨f1, f2, -⟩ := costs_facts sim sim₁ _ _ hc h1
    obtain ⟨g1, g2⟩ := numLoop_facts y _ _ _ _ sim₁ sim₂ _ f1 h2
    exact ⟨g1, g2.trans f2⟩
  | false =>
    rw [hn] at hw
    simp only at hw
    obtain ⟨y, hy, hw⟩ := TF.bind_ok hw
    obtain ⟨ss, hss, hw⟩ := TF.bind_ok hw
    obtain ⟨v, -, hw⟩ := TF.bind_ok hw
    obtain ⟨r, -, hw⟩ := TF.bind_ok hw
    simp only [pure, Except.pure, Except.ok.injEq, Prod.mk.injEq] at hw
    obtain ⟨rfl, rfl⟩ := hw
    exact ⟨setSolvers_coherent hc hss, rfl⟩

/-- **C58 (partial)** After every history of assignments and evaluations (with other pulses in between), an evaluation without
a pulse runs every solver with the control amplitudes of the last assigned pulse.  Missing: the solvers do not have them
directly after the assignment (`c58_violated`). -/
theorem c58_next_evaluation_partial (sim sim' sim'' : Sim p) (ops : List (Op p)) (C : List ℝ)
    (hc : ∀ s ∈ sim.solvers, s.Coherent) (h : History sim ops sim') (y : Pulse ℝ p) (hy : lastAssigned sim.pulse ops = some y)
    (he : sim'.wrappedCosts none = .ok (sim'', C)) :
    sim'.pulse = some y ∧ ∀ s ∈ sim''.solvers, s.optPars = some y ∧
      ∃ x, s.tf.run y = .ok x ∧ s.amps = some (s.amp.call x) := by
  have key : (∀ s ∈ sim'.solvers, s.Coherent) ∧ sim'.pulse = lastAssigned sim.pulse ops := by
    clear he hy
    induction h with
    | nil sim => exact ⟨hc, rfl⟩
    | @cons sim sim₁ sim₂ op ops hop hrest ih =>
      cases op with
      | assign y =>
        simp only [Op.run] at hop
        have : (∀ s ∈ sim₁.solvers, s.Coherent) ∧ sim₁.pulse = y := by
          unfold Sim.setPulse at hop
          cases y with
          | none =>
            simp only [Except.ok.injEq] at hop
            subst hop
            exact ⟨hc, rfl⟩
          | some y =>
            cases hold : sim.pulse with
            | none => simp [hold] at hop
            | some old =>
              simp only [hold, Except.ok.injEq] at hop
              subst hop
              exact ⟨hc, rfl⟩
        obtain ⟨i1, i2⟩ := ih this.1
        exact ⟨i1, by rw [i2, this.2]; rfl⟩
      | costs w =>
        simp only [Op.run] at hop
        obtain ⟨⟨s, C'⟩, hq, rfl⟩ := TF.map_ok hop
        obtain ⟨f1, f2, -⟩ := costs_facts sim s w C' hc hq
        obtain ⟨i1, i2⟩ := ih f1
        exact ⟨i1, by rw [i2, f2]; rfl⟩
      | jac w =>
        simp only [Op.run] at hop
        obtain ⟨⟨s, C'⟩, hq, rfl⟩ := TF.map_ok hop
        obtain ⟨f1, f2⟩ := jac_facts sim s w C' hc hq
        obtain ⟨i1, i2⟩ := ih f1
        exact ⟨i1, by rw [i2, f2]; rfl⟩
  obtain ⟨k1, k2⟩ := key
  rw [hy] at k2
  refine ⟨k2, ?_⟩
  obtain ⟨f1, -, y', hy', f3⟩ := costs_facts sim' sim'' none C k1 he
  have : y' = y := by
    simp only [Sim.given, k2, Except.ok.injEq] at hy'
    exact hy'.symm
  subst this
  intro s hs
  obtain ⟨x, hx, ha, -⟩ := f1 s hs y' (f3 s hs)
  exact ⟨f3 s hs, x, hx, ha⟩

/-- The simulator of `Ex57` with a pulse. -/
noncomputable def simWith (y : Pulse ℝ 1) : Sim 1 := { Ex57.sim with pulse := some y }

/-- A history meeting the hypotheses of `c58_next_evaluation_partial`: assign, evaluate somewhere else. -/
example : ∃ sim' sim'' C, History (simWith [fun _ => 0, fun _ => 0])
    [.assign (some [fun _ => 1, fun _ => 2]), .costs (some [fun _ => 5, fun _ => 6])] sim' ∧
    sim'.wrappedCosts none = .ok (sim'', C) := by
  have h1 : ∃ s₁, (Op.assign (some [fun _ => 1, fun _ => 2]) : Op 1).run (simWith [fun _ => 0, fun _ => 0]) = .ok s₁ ∧
      s₁ = { simWith [fun _ => 1, fun _ => 2] with numTimes := some 2, numCtrl := some 1 } := ⟨_, rfl, rfl⟩
  obtain ⟨s₁, h1, e1⟩ := h1
  have h2 : ∃ s₂, (Op.costs (some [fun _ => 5, fun _ => 6]) : Op 1).run s₁ = .ok s₂ ∧ ∃ s₃ C, s₂.wrappedCosts none = .ok (s₃, C) := by
    subst e1
    simp [Op.run, simWith, Sim.wrappedCosts, Ex57.sim, Sim.given, Sim.setSolvers, SolverObj.setPars, TF.call, bind, Except.bind,
      pure, Except.pure, AmpFunc.call, Sim.costLoop, Sim.solverOf, Ex55.cost, Sim.concatenate0, Except.map, funext_iff]
  obtain ⟨s₂, h2, s₃, C, h3⟩ := h2
  exact ⟨s₂, s₃, C, .cons h1 (.cons h2 (.nil _)), h3⟩

/-- **C58 is violated**: assigning `pulse` does not touch the solvers, so directly afterwards they still hold the amplitudes of
the pulse evaluated last; the recorded number of time steps is that of the *previous* pulse; and on a simulator that has no
pulse yet the assignment raises AttributeError. -/
theorem c58_violated :
    (∀ (sim : Sim p) (y : Pulse ℝ p) (sim' : Sim p), sim.setPulse (some y) = .ok sim' → sim'.solvers = sim.solvers ∧
      sim'.numTimes = sim.pulse.map List.length) ∧
    (∀ (sim : Sim p) (y : Pulse ℝ p), sim.pulse = none → sim.setPulse (some y) = .error .attributeError) ∧
    ∃ (sim sim₁ sim₂ : Sim 1) (C : List ℝ) (y₁ y₂ : Pulse ℝ 1), sim.wrappedCosts (some y₁) = .ok (sim₁, C) ∧
      sim₁.setPulse (some y₂) = .ok sim₂ ∧ y₁ ≠ y₂ ∧ ∀ s ∈ sim₂.solvers, s.optPars = some y₁ := by
  refine ⟨?_, ?_, ?_⟩
  · intro sim y sim' h
    unfold Sim.setPulse at h
    cases hp : sim.pulse with
    | none => simp [hp] at h
    | some old =>
      simp only [hp, Except.ok.injEq] at h
      subst h
      exact ⟨rfl, rfl⟩
  · intro sim y h
    simp [Sim.setPulse, h]
  · obtain ⟨sim₁, h1⟩ : ∃ sim₁, (simWith [fun _ => 0, fun _ => 0]).wrappedCosts (some [fun _ => 1, fun _ => 2]) =
        .ok (sim₁, [5]) := by
      simp [simWith, Sim.wrappedCosts, Ex57.sim, Sim.given, Sim.setSolvers, SolverObj.setPars, TF.call, bind, Except.bind,
        pure, Except.pure, AmpFunc.call, Sim.costLoop, Sim.solverOf, Ex55.cost, Sim.concatenate0]
      norm_num
    have hc : ∀ s ∈ (simWith [fun _ => 0, fun _ => 0]).solvers, s.Coherent := by
      intro s hs y hy
      simp only [simWith, Ex57.sim, List.mem_singleton] at hs
      subst hs
      simp at hy
    obtain ⟨-, f2, y, hy, f3⟩ := costs_facts _ _ _ _ hc h1
    simp only [Sim.given, Except.ok.injEq] at hy
    subst hy
    refine ⟨_, sim₁, { sim₁ with numTimes := some 2, numCtrl := some 1, pulse := some [fun _ => 7, fun _ => 8] }, _, _,
      [fun _ => 7, fun _ => 8], h1, ?_, ?_, f3⟩
    · have : sim₁.pulse = some [fun _ => 0, fun _ => 0] := f2
      simp [Sim.setPulse, this]
    · intro h
      have := congrFun (List.cons.inj h).1 0
      norm_num at this

end Verif.Sim
