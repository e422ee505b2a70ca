import Verif.Solver.MonteCarloCacheThms
import Verif.Solver.PulseSeq

/-! # What the Monte Carlo solvers and the filter function interface raise (C37, C87, C100) -/

namespace Verif.Solver
open Verif Verif.Operator Matrix

section
variable {n m γ : Type} [Fintype n] [DecidableEq n] [Fintype m] [DecidableEq m]

/-- Specification: what a read raises before the first pulse is set: the control amplitudes are `None`.  An unknown approximation
method is noticed before. -/
def errorWithoutPulse (c : NCfg n m γ) : NOp → PyErr
  | .deriv => if c.base.approx = .other then .valueError else .typeError
  | .derivNoise => if c.base.approx = .other then .valueError else .typeError
  | _ => .typeError

/-- **C100** A solver that got no pulse raises on every read, draws no noise and is unchanged: the first pulse set later meets the
solver as it was constructed. -/
theorem c100_no_pulse (c : NCfg n m γ) (τ : List ℝ) (g : γ) (op : NOp) (hr : op.isRead = true) :
    nRun c op (nConstruct c τ g) = (some (errorWithoutPulse c op), nConstruct c τ g) := by
  have hp : ∀ wd, nPropagation c wd (nConstruct c τ g) = (some .typeError, nConstruct c τ g) := fun _ => rfl
  have he : ∀ wd, nEnsure c wd (nConstruct c τ g) = (some .typeError, nConstruct c τ g) := fun _ => rfl
  have hf : nComputeFwd c (nConstruct c τ g) = (some .typeError, nConstruct c τ g) := by
    unfold nComputeFwd; rw [he]
  have hv : nComputeRev c (nConstruct c τ g) = (some .typeError, nConstruct c τ g) := by
    unfold nComputeRev; rw [he]
  have hd : nComputeDeriv c (nConstruct c τ g) =
      (some (if c.base.approx = .other then .valueError else .typeError), nConstruct c τ g) := by
    unfold nComputeDeriv
    cases ha : c.base.approx with
    | none => simp [hp]
    | grape => simp [he]
    | other => simp
  have rd : ∀ {α : Type} (get : NSt n m γ → Option α) (dflt : α) (compute : NSt n m γ → Option PyErr × NSt n m γ) (e : PyErr),
      get (nConstruct c τ g) = none → compute (nConstruct c τ g) = (some e, nConstruct c τ g) →
      nOutcome (nRead get dflt compute (nConstruct c τ g)) = (some e, nConstruct c τ g) := by
    intro α get dflt compute e h1 h2
    simp [nRead, h1, h2, nOutcome]
  cases op with
  | set y => simp [NOp.isRead] at hr
  | times τ => simp [NOp.isRead] at hr
  | props => exact rd (fun s => s.core.prop) _ _ _ rfl (hp _)
  | fwd => exact rd (fun s => s.core.fwd) _ _ _ rfl hf
  | rev => exact rd (fun s => s.core.rev) _ _ _ rfl hv
  | deriv => exact rd (fun s => s.core.deriv) _ _ _ rfl hd
  | propsNoise => exact rd (fun s => s.prop) _ _ _ rfl (hp _)
  | fwdNoise => exact rd (fun s => s.fwd) _ _ _ rfl hf
  | revNoise => exact rd (fun s => s.rev) _ _ _ rfl hv
  | derivNoise => exact rd (fun s => s.deriv) _ _ _ rfl hd

/-- The first element of a list evaluated in order decides about the exception. -/
theorem inOrder_first {α : Type} (unset : α) (f : Nat → Except PyErr α) (k : Nat) (hk : 0 < k) (e : PyErr) (h : f 0 = .error e) :
    inOrder unset ((List.range k).map f) = .error e := by
  obtain ⟨j, rfl⟩ : ∃ j, k = j + 1 := ⟨k - 1, by omega⟩
  rw [List.range_succ_eq_map, List.map_cons, h]
  rfl

/-- **C37** (rejection) With control noise, the samples must have the shape of the parameters and the amplitude function must return one
amplitude for each time step and control: ValueError otherwise.  What the amplitude function itself raises is passed on. -/
theorem c37_rejects (p : SPar n m) (procs : Procs) (nTraces : Nat) (S : Arr3) (y x u : Pulse) (hS : 0 < S.d1) :
    ((x.length ≠ S.d2 ∨ ∃ row ∈ x, row.length ≠ S.d0) → dynGenNoise (mcControlNoise p procs nTraces S) y x u = .error .valueError) ∧
    (x.length = S.d2 → (∀ row ∈ x, row.length = S.d0) →
      (∀ e, p.amp (noisyPars x S 0) = .error e → dynGenNoise (mcControlNoise p procs nTraces S) y x u = .error e) ∧
      ∀ a, p.amp (noisyPars x S 0) = .ok a →
        (a.ndim ≠ 2 ∨ a.rows.length ≠ u.length ∨ a.cols ≠ p.ctrl.length ∨ a.rows.length ≠ x.length) →
        dynGenNoise (mcControlNoise p procs nTraces S) y x u = .error .valueError) := by
  have key : ∀ e, controlNoiseTrace p.amp S.transpose x u p.ctrl.length 0 = .error e →
      dynGenNoise (mcControlNoise p procs nTraces S) y x u = .error e := by
    intro e he
    unfold dynGenNoise noiseAmplitudes mcControlNoise
    simp only [controlNoiseAmp]
    rw [show S.transpose.d1 = S.d1 from rfl, inOrder_first [] _ S.d1 hS e he]
    rfl
  refine ⟨fun h => key _ ?_, fun hx hrow => ⟨fun e he => key _ ?_, fun a ha hbad => key _ ?_⟩⟩
  · unfold controlNoiseTrace addNoise
    rw [if_neg]
    · rfl
    · rintro ⟨h1, h2⟩
      rcases h with h | ⟨row, hr, h⟩
      · exact h h1
      · exact h (h2 row hr)
  · unfold controlNoiseTrace
    rw [addNoise_eq x S 0 hx hrow]
    simp only [bind, Except.bind, he]
  · unfold controlNoiseTrace
    rw [addNoise_eq x S 0 hx hrow]
    simp only [bind, Except.bind, ha]
    rw [if_neg]
    rintro ⟨h1, h2, h3, h4⟩
    rcases hbad with h | h | h | h
    · exact h h1
    · exact h h2
    · exact h h3
    · exact h (h4.trans hx.symm)

end

section
variable {n m B Ω : Type} [Fintype n] [DecidableEq n]

/-- **C87** (rejection) Without noise terms and without control operators there is no operator to build a vanishing noise term from:
IndexError. -/
theorem c87_no_operators (F : FCfg n m B Ω) (hk : F.kind = .base) (hc : F.hCtrl = []) (w : FSt n m B Ω) (hs : w.seq = none) (u : Pulse)
    (hu : w.s.amps = some u) (hn : userTerms F.spec w.s.optPars w.s.xPars u = []) : (ffCosts F w).1 = .error .indexError := by
  have h : noiseTerms F w.s u = .error .indexError := by
    unfold noiseTerms
    rw [hk]
    simp only
    cases hsp : F.spec with
    | list l => rw [hsp] at hn; simp only [userTerms] at hn; subst hn; simp [hc]
    | three f => rw [hsp] at hn; simp only [userTerms] at hn; simp [hc, hn]
    | one f => rw [hsp] at hn; simp only [userTerms] at hn; simp [hc, hn]
  simp [ffCosts, hs, createSeq, hu, buildSeq, createHN, h]

end

/-! ## Cases meeting the hypotheses -/

example (L : Lapack (Fin 2)) : nRun (qubitN L) .fwdNoise (nConstruct (qubitN L) [1, 1, 1] 0) =
    (some .typeError, nConstruct (qubitN L) [1, 1, 1] 0) := c100_no_pulse _ _ _ _ rfl

/-- Two traces of noise for three time steps, but a pulse of one step. -/
example (L : Lapack (Fin 2)) (y : Pulse) : dynGenNoise (mcControlNoise (qubitPar L .none false) (.int 1) 2 ⟨2, 2, 3, fun _ _ _ => 1⟩) y
    [[1, 2]] [[1, 2]] = .error .valueError :=
  (c37_rejects _ _ _ _ y _ _ (by decide)).1 (.inl (by decide))

example (L : Lapack (Fin 2)) (H₀ : Matrix (Fin 2) (Fin 2) ℂ) (w : FSt (Fin 2) (Fin 2) Nat ℝ) (hs : w.seq = none)
    (hu : w.s.amps = some [[], []]) :
    (ffCosts ({ exF L H₀ H₀ .base (.list []) with hCtrl := [] } : FCfg (Fin 2) (Fin 2) Nat ℝ) w).1 = .error .indexError :=
  c87_no_operators _ rfl rfl w hs _ hu rfl

end Verif.Solver
