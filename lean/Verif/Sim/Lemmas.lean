import Verif.Sim.Curve

/-! # Specifications and helper lemmas for the simulator (C55-C58) -/

namespace Verif.Sim
open Verif Verif.Transfer

variable {p : Nat}

/-! ## Specifications -/

/-- Specification: the pulse `y` with `h` added to parameter `j` of time step `t`. -/
def shift (y : Pulse ℝ p) (t : Nat) (j : Fin p) (h : ℝ) : Pulse ℝ p :=
  y.modify t fun r => Function.update r j (r j + h)

/-- The same solver object with other amplitudes (and a transfer function in another state). -/
abbrev SolverObj.withAmps (s : SolverObj p) (tf : TF ℝ p) (o : Option (Pulse ℝ p)) (u : Pulse ℝ s.c) : SolverObj p :=
  { s with tf := tf, optPars := o, amps := some u }

/-- Specification: the stored amplitudes belong to the stored parameters (true of a new object and after every successful
`set_optimization_parameters`). -/
def SolverObj.Coherent (s : SolverObj p) : Prop :=
  ∀ y, s.optPars = some y → ∃ x, s.tf.run y = .ok x ∧ s.amps = some (s.amp.call x) ∧ (s.amp.call x).length = s.nTimes

/-- Specification: `costs()` is a function of the control amplitudes of the solver and `grad()` is its derivative, i.e. along
every differentiable curve of amplitudes the cost changes at the rate `∑ grad[t, i, k] * u'[t, k]`. -/
def CostFn.Correct (F : CostFn p) (s : SolverObj p) : Prop :=
  ∃ φ : Pulse ℝ s.c → List ℝ, (∀ tf o u, u.length = s.nTimes → F.costs (s.withAmps tf o u) = .ok (φ u)) ∧
    ∀ tf o (u : Pulse ℝ s.c) (jac : Jac s.c), u.length = s.nTimes → F.grad (s.withAmps tf o u) = .ok jac →
      jac.expand.2.length = u.length ∧ (∀ v, v.length = s.nTimes → (φ v).length = jac.expand.1) ∧
      ∀ (w : ℝ → Pulse ℝ s.c) (w' : Pulse ℝ s.c) (h₀ : ℝ), w h₀ = u → CurveDeriv w w' h₀ →
        ∀ i : Fin jac.expand.1, HasDerivAt (fun h => (φ (w h)).getD i 0) (pairing jac.expand.2 w' i) h₀

/-! ## Shifting one entry -/

theorem shift_length (y : Pulse ℝ p) (t : Nat) (j : Fin p) (h : ℝ) : (shift y t j h).length = y.length := by
  simp [shift]

theorem rowAt_shift (y : Pulse ℝ p) (t : Nat) (j : Fin p) (h : ℝ) (i : Nat) (k : Fin p) (hi : i < y.length) :
    rowAt (shift y t j h) i k = rowAt y i k + if i = t ∧ k = j then h else 0 := by
  have hi' : i < (shift y t j h).length := by rw [shift_length]; exact hi
  rw [rowAt_lt _ _ hi', rowAt_lt _ _ hi]
  have e : (shift y t j h)[i]'hi' = if t = i then Function.update y[i] j (y[i] j + h) else y[i] := by
    exact List.getElem_modify _ _ _ _ hi'
  rw [e]
  by_cases h1 : t = i
  · subst h1
    by_cases h2 : k = j
    · subst h2; simp
    · simp [h2]
  · simp [h1, Ne.symm h1]

theorem shift_zero (y : Pulse ℝ p) (t : Nat) (j : Fin p) : shift y t j 0 = y := by
  unfold shift
  simp only [add_zero, Function.update_eq_self]
  exact List.modify_id _ _

/-- The unit pulse. -/
def unitPulse (n t : Nat) (j : Fin p) : Pulse ℝ p := (List.range n).map fun i k => if i = t ∧ k = j then 1 else 0

theorem shift_curve (y : Pulse ℝ p) (t : Nat) (j : Fin p) :
    CurveDeriv (fun h => shift y t j h) (unitPulse y.length t j) 0 := by
  refine ⟨fun h => by simp [shift_length, unitPulse], fun i k => ?_⟩
  by_cases hi : i < y.length
  · simp only [rowAt_shift y t j _ i k hi]
    rw [unitPulse, rowAt_map_range _ _ _ hi]
    split
    · exact (hasDerivAt_id' (0 : ℝ)).const_add _
    · exact hasDerivAt_const _ _
  · have e : (fun h => rowAt (shift y t j h) i k) = fun _ => 0 := by
      funext h
      rw [rowAt_ge _ _ (by rw [shift_length]; omega)]
      rfl
    rw [e, rowAt_ge _ _ (by simp [unitPulse]; omega)]
    exact hasDerivAt_const _ _

theorem pairing_unit {f : Nat} (g : Grads ℝ f p) (n t : Nat) (j : Fin p) (φ : Fin f) (ht : t < n) :
    pairing g (unitPulse n t j) φ = rowAt g t φ j := by
  rw [pairing_eq_sum _ _ _ n (Or.inr (by simp [unitPulse])), Finset.sum_eq_single t, Finset.sum_eq_single j]
  · rw [unitPulse, rowAt_map_range _ _ _ ht]; simp
  · intro k' _ hk'
    rw [unitPulse, rowAt_map_range _ _ _ ht]
    simp [hk']
  · simp
  · intro i' hi' hne
    rw [unitPulse, rowAt_map_range _ _ _ (Finset.mem_range.mp hi')]
    simp [hne]
  · intro h; exact absurd (Finset.mem_range.mpr ht) h

theorem plusDelta_eq (y : Pulse ℝ p) (t : Nat) (j : Fin p) (ε : ℝ) : Sim.plusDelta y t j ε = shift y t j ε := by
  apply List.ext_getElem
  · simp [Sim.plusDelta, shift_length]
  · intro i h1 h2
    have hi : i < y.length := by simpa [shift_length] using h2
    funext k
    have e := rowAt_shift y t j ε i k hi
    rw [rowAt_lt _ _ h2, rowAt_lt _ _ hi] at e
    refine Eq.trans ((congrFun List.getElem_zipWith k).trans ?_) e.symm
    rw [List.getElem_map, List.getElem_range]

theorem minusDelta_eq (y : Pulse ℝ p) (t : Nat) (j : Fin p) (ε : ℝ) : Sim.minusDelta y t j ε = shift y t j (-ε) := by
  apply List.ext_getElem
  · simp [Sim.minusDelta, shift_length]
  · intro i h1 h2
    have hi : i < y.length := by simpa [shift_length] using h2
    funext k
    have e := rowAt_shift y t j (-ε) i k hi
    rw [rowAt_lt _ _ h2, rowAt_lt _ _ hi] at e
    refine Eq.trans ((congrFun List.getElem_zipWith k).trans ?_) e.symm
    rw [List.getElem_map, List.getElem_range]
    split <;> simp [sub_eq_add_neg]

/-! ## Setting the parameters -/

theorem amp_len : ∀ {p c : Nat} (a : AmpFunc p c), a.Correct → ∀ x, (a.call x).length = x.length := by
  intro p c a ha x
  cases a with
  | identity => rfl
  | unary v d => simp [AmpFunc.call]
  | custom v d =>
    obtain ⟨w, hv, -⟩ := ha
    simp [AmpFunc.call, hv]

theorem call_run {t t' : TF ℝ p} {y x : Pulse ℝ p} (h : t.call y = .ok (t', x)) : t.run y = .ok x := by
  simp [TF.run, h, Except.map]

theorem run_call {t : TF ℝ p} {y x : Pulse ℝ p} (h : t.run y = .ok x) : ∃ t', t.call y = .ok (t', x) := by
  unfold TF.run at h
  cases e : t.call y with
  | error e' => simp [e, Except.map] at h
  | ok q =>
    obtain ⟨t', x'⟩ := q
    simp only [e, Except.map, Except.ok.injEq] at h
    exact ⟨t', by rw [h]⟩

theorem back_grad {f : Nat} {t t' : TF ℝ p} {g h : Grads ℝ f p} (e : t.grad g = .ok (t', h)) : t.back g = .ok h := by
  simp [TF.back, e, Except.map]

/-- What a successful `set_optimization_parameters` does. -/
theorem setPars_ok {s s' : SolverObj p} {y : Pulse ℝ p} (hc : s.Coherent) (h : s.setPars y = .ok s') :
    ∃ tf x, TF.Same s.tf tf ∧ s.tf.run y = .ok x ∧ (s.amp.call x).length = s.nTimes ∧
      s' = s.withAmps tf (some y) (s.amp.call x) := by
  unfold SolverObj.setPars at h
  split at h
  · rename_i hy
    simp only [Except.ok.injEq] at h
    subst h
    obtain ⟨x, hx, ha, hl⟩ := hc y hy
    refine ⟨s.tf, x, TF.Same.refl _, hx, hl, ?_⟩
    cases s
    simp only at hy ha
    subst hy; subst ha
    rfl
  · obtain ⟨⟨tf, x⟩, hq, h⟩ := TF.bind_ok h
    simp only at h
    split at h
    · rename_i hl
      simp only [pure, Except.pure, Except.ok.injEq] at h
      exact ⟨tf, x, TF.call_same _ _ _ _ hq, call_run hq, hl, h.symm⟩
    · simp at h

theorem setPars_of {s : SolverObj p} {y x : Pulse ℝ p} (hx : s.tf.run y = .ok x)
    (hl : (s.amp.call x).length = s.nTimes) : ∃ s', s.setPars y = .ok s' := by
  unfold SolverObj.setPars
  split
  · exact ⟨_, rfl⟩
  · obtain ⟨t', ht⟩ := run_call hx
    rw [ht]
    simp only [bind, Except.bind, if_pos hl]
    exact ⟨_, rfl⟩

theorem setPars_coherent {s s' : SolverObj p} {y : Pulse ℝ p} (hc : s.Coherent) (h : s.setPars y = .ok s') :
    s'.Coherent := by
  obtain ⟨tf, x, hs, hx, hl, rfl⟩ := setPars_ok hc h
  intro y' hy'
  simp only [Option.some.injEq] at hy'
  subst hy'
  exact ⟨x, by rw [← hs.2.1]; exact hx, rfl, hl⟩

theorem setSolvers_forall₂ {ss ss' : List (SolverObj p)} {y : Pulse ℝ p} (h : Sim.setSolvers ss y = .ok ss') :
    List.Forall₂ (fun s s' => s.setPars y = .ok s') ss ss' := by
  induction ss generalizing ss' with
  | nil =>
    simp only [Sim.setSolvers, Except.ok.injEq] at h
    subst h; exact .nil
  | cons s ss ih =>
    simp only [Sim.setSolvers] at h
    obtain ⟨s', hs, h⟩ := TF.bind_ok h
    obtain ⟨r, hr, h⟩ := TF.bind_ok h
    simp only [pure, Except.pure, Except.ok.injEq] at h
    subst h
    exact .cons hs (ih hr)

theorem setSolvers_of {ss : List (SolverObj p)} {y : Pulse ℝ p} (h : ∀ s ∈ ss, ∃ s', s.setPars y = .ok s') :
    ∃ ss', Sim.setSolvers ss y = .ok ss' := by
  induction ss with
  | nil => exact ⟨[], rfl⟩
  | cons s ss ih =>
    obtain ⟨s', hs⟩ := h s (by simp)
    obtain ⟨r, hr⟩ := ih fun q hq => h q (by simp [hq])
    exact ⟨s' :: r, by simp [Sim.setSolvers, hs, hr, bind, Except.bind, pure, Except.pure]⟩

theorem setSolvers_get {ss ss' : List (SolverObj p)} {y : Pulse ℝ p} (h : Sim.setSolvers ss y = .ok ss') {i : Nat}
    {s' : SolverObj p} (hi : Sim.solverOf ss' i = .ok s') : ∃ s, ss[i]? = some s ∧ s.setPars y = .ok s' := by
  have hf := setSolvers_forall₂ h
  clear h
  induction hf generalizing i with
  | nil => simp [Sim.solverOf] at hi
  | cons hs _ ih =>
    cases i with
    | zero =>
      simp only [Sim.solverOf, List.getElem?_cons_zero, Except.ok.injEq] at hi
      subst hi
      exact ⟨_, rfl, hs⟩
    | succ i =>
      have : ∀ l : List (SolverObj p), ∀ a, Sim.solverOf (a :: l) (i + 1) = Sim.solverOf l i := by
        intro l a; simp [Sim.solverOf]
      rw [this] at hi
      obtain ⟨s, h1, h2⟩ := ih hi
      exact ⟨s, by simpa using h1, h2⟩

theorem setSolvers_get' {ss ss' : List (SolverObj p)} {y : Pulse ℝ p} (h : Sim.setSolvers ss y = .ok ss') {i : Nat}
    {s : SolverObj p} (hi : ss[i]? = some s) : ∃ s', Sim.solverOf ss' i = .ok s' ∧ s.setPars y = .ok s' := by
  have hf := setSolvers_forall₂ h
  clear h
  induction hf generalizing i with
  | nil => simp at hi
  | cons hs _ ih =>
    cases i with
    | zero =>
      simp only [List.getElem?_cons_zero, Option.some.injEq] at hi
      subst hi
      exact ⟨_, rfl, hs⟩
    | succ i =>
      obtain ⟨s', h1, h2⟩ := ih (by simpa using hi)
      exact ⟨s', by simpa [Sim.solverOf] using h1, h2⟩

theorem setSolvers_coherent {ss ss' : List (SolverObj p)} {y : Pulse ℝ p} (hc : ∀ s ∈ ss, s.Coherent)
    (h : Sim.setSolvers ss y = .ok ss') : ∀ s ∈ ss', s.Coherent := by
  have hf := setSolvers_forall₂ h
  clear h
  induction hf with
  | nil => simp
  | cons hs _ ih =>
    intro s hs'
    rcases List.mem_cons.mp hs' with rfl | hs'
    · exact setPars_coherent (hc _ (by simp)) hs
    · exact ih (fun s h => hc s (by simp [h])) s hs'

theorem setSolvers_fits {ss ss' : List (SolverObj p)} {y : Pulse ℝ p} (hc : ∀ s ∈ ss, s.tf.Fits)
    (h : Sim.setSolvers ss y = .ok ss') : ∀ s ∈ ss', s.tf.Fits := by
  have hf := setSolvers_forall₂ h
  clear h
  induction hf with
  | nil => simp
  | cons hs _ ih =>
    intro s hs'
    rcases List.mem_cons.mp hs' with rfl | hs'
    · have h0 := hc _ List.mem_cons_self
      unfold SolverObj.setPars at hs
      split at hs
      · simp only [Except.ok.injEq] at hs
        rw [← hs]; exact h0
      · obtain ⟨⟨tf, x⟩, hq, hs⟩ := TF.bind_ok hs
        simp only at hs
        split at hs
        · simp only [pure, Except.pure, Except.ok.injEq] at hs
          rw [← hs]
          exact TF.call_fits _ _ _ _ h0 hq
        · simp at hs
    · exact ih (fun s h => hc s (by simp [h])) s hs'

/-! ## Concatenation -/

theorem concatenate1_ok {α : Type} {l : List (List (List α))} {r : List (List α)} (h : Sim.concatenate1 l = .ok r) :
    (∀ a ∈ l, a.length = r.length) ∧ ∀ t, r.getD t [] = (l.map fun a => a.getD t []).flatten := by
  induction l generalizing r with
  | nil => simp [Sim.concatenate1] at h
  | cons a l ih =>
    cases l with
    | nil =>
      simp only [Sim.concatenate1, Except.ok.injEq] at h
      subst h
      simp
    | cons b l =>
      simp only [Sim.concatenate1] at h
      obtain ⟨q, hq, h⟩ := TF.bind_ok h
      split at h
      case isFalse => simp at h
      rename_i e
      simp only [pure, Except.pure, Except.ok.injEq] at h
      obtain ⟨i1, i2⟩ := ih hq
      have hl : r.length = q.length := by rw [← h]; simp [e]
      refine ⟨?_, ?_⟩
      · intro x hx
        rcases List.mem_cons.mp hx with rfl | hx
        · rw [hl, e]
        · rw [i1 x hx, hl]
      · intro t
        rw [List.map_cons, List.flatten_cons, ← i2 t, ← h]
        by_cases ht : t < q.length
        · rw [List.getD_eq_getElem _ _ (by simp [e, ht]), List.getD_eq_getElem _ _ (by omega), List.getD_eq_getElem _ _ ht]
          simp
        · rw [List.getD_eq_default _ _ (by simp [e]; omega), List.getD_eq_default _ _ (by omega),
            List.getD_eq_default _ _ (by omega)]
          rfl

theorem concatenate0_ok {α : Type} {l : List (List α)} {r : List α} (h : Sim.concatenate0 l = .ok r) : r = l.flatten := by
  cases l with
  | nil => simp [Sim.concatenate0] at h
  | cons a l => simpa [Sim.concatenate0] using h.symm

end Verif.Sim
