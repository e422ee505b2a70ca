import Verif.Cost.Total
import Verif.Cost.Leakage

/-!
# The leakage of unitary evolutions

For Hermitian Hamiltonians the clipping in `LeakageError.costs` never changes anything, so that the gradient is the total
derivative for all amplitudes, also where the leakage vanishes.
-/

namespace Verif.Cost
open Verif Verif.Operator Verif.Solver Matrix

section
variable {n : Type} [Fintype n] [DecidableEq n]

theorem final_unitary (p : SPar n n) (τ : List ℝ) (hmeth : p.method = .frechet) (hE : p.L.ExpmOk)
    (hd : ∀ H ∈ p.drift, H.IsHermitian) (hc : ∀ H ∈ p.ctrl, H.IsHermitian) (hi : p.init ∈ Matrix.unitaryGroup n ℂ)
    (u : Pulse) : p.final τ u ∈ Matrix.unitaryGroup n ℂ := by
  have hstep : ∀ P ∈ p.steps τ u, P ∈ Matrix.unitaryGroup n ℂ := by
    intro P hP
    obtain ⟨t, -, rfl⟩ := List.mem_map.mp hP
    refine propOf_unitary p (Or.inl ⟨hmeth, hE⟩) _ (hamiltonian_isHermitian _ ?_ hc) _
    rw [List.getD_eq_getElem?_getD]
    cases h : p.drift[t]? with
    | none => exact Matrix.isHermitian_zero
    | some H => exact hd _ (List.mem_of_getElem? h)
  unfold SPar.final
  generalize p.init = I at hi
  generalize p.steps τ u = ps at hstep
  induction ps generalizing I with
  | nil => exact hi
  | cons P ps ih => exact ih _ (mul_mem (hstep P (by simp)) hi) fun Q hQ => hstep Q (by simp [hQ])

/-- The leakage before clipping. -/
noncomputable def leakRaw (l : List n) (fwd : List (Matrix n n ℂ)) : Except PyErr ℝ := do
  let final ← last fwd
  pure (leakOf l final)

/-- The gradient is the derivative of the leakage before clipping, without condition. -/
theorem leakRaw_gradient (l : List n) (init : Matrix n n ℂ) (ps : List (Matrix n n ℂ)) (nc : Nat)
    (hnc : 0 < nc) (tr : Trace n n) (htr : tr.Of init ps nc) :
    ∃ g, leakGrad l tr.fwd tr.dP tr.rev = .ok g ∧ Rect g ps.length nc ∧
      ∀ t c P D fwds, Sweep init ps t P D fwds → tr.derivAt t c = some D →
        ∃ (G : ℝ) (cost : ℝ → ℝ), entry g t c = some G ∧ (∀ x, leakRaw l (fwds x) = .ok (cost x)) ∧
          leakRaw l tr.fwd = .ok (cost 0) ∧ HasDerivAt cost G 0 := by
  obtain ⟨E, hE⟩ : ∃ E, tr.fwd.getLast? = some E := by
    have : tr.fwd ≠ [] := by
      intro h0
      have := htr.forward.1
      rw [h0] at this
      simp at this
    exact ⟨_, List.getLast?_eq_some_getLast this⟩
  obtain ⟨g, h1, h2, h3⟩ := gradTable_entry htr hnc fun X =>
    -2 / (l.length : ℝ) * (X.submatrix l.get l.get * (Eᴴ).submatrix l.get l.get).trace.re
  refine ⟨g, ?_, h2, fun t c P D fwds hs hD => ?_⟩
  · unfold leakGrad
    rw [last_ok hE]
    exact h1
  · obtain ⟨R, F, e1, e2, e3, e4, e5⟩ := hs.final htr
    rw [hE] at e4
    simp only [Option.some.injEq] at e4
    refine ⟨_, fun x => leakOf l (R * P x * F), h3 t c R D F e1 hD e2, fun x => ?_, ?_, ?_⟩
    · unfold leakRaw
      rw [last_ok (e3 x)]; rfl
    · unfold leakRaw
      rw [last_ok hE, e4]; rfl
    · have hd := leakOf_deriv l e5
      rw [← e4] at hd
      exact hd

/-- **C50** For Hermitian Hamiltonians the leakage gradient is the total derivative of the (clipped) leakage for every array
of amplitudes, whether or not there is leakage. -/
theorem c50_total (p : SPar n n) (τ : List ℝ) (hv : p.Valid τ) (hst : Stable p.cfg)
    (hmeth : p.method = .frechet) (happ : p.approx = .none) (hE : p.L.ExpmOk) (hF : p.L.FrechetOk) (hne : p.xTimes τ ≠ [])
    (hreach : ∀ U : Fin (p.xTimes τ).length → Fin p.ctrl.length → ℝ, ∃ y, ampsOf p.cfg τ y = some (rowsOf U))
    (hd : ∀ H ∈ p.drift, H.IsHermitian) (hc : ∀ H ∈ p.ctrl, H.IsHermitian) (hi : p.init ∈ Matrix.unitaryGroup n ℂ)
    (l : List n) (hl : l.Nodup) (hlne : l ≠ []) (U : Fin (p.xTimes τ).length → Fin p.ctrl.length → ℝ) :
    ∃ g : Fin (p.xTimes τ).length → Fin p.ctrl.length → ℝ,
      (∀ s, Ready p τ (rowsOf U) s →
        (gradOn (fun tr => leakGrad l tr.fwd tr.dP tr.rev) p.cfg s).1 = .ok (rowsOf g)) ∧
      (∀ (V : Fin (p.xTimes τ).length → Fin p.ctrl.length → ℝ) s, Ready p τ (rowsOf V) s →
        (costOn (leakCosts l) p.cfg s).1 = .ok (1 - (((p.final τ (rowsOf V)).submatrix l.get l.get)ᴴ *
          (p.final τ (rowsOf V)).submatrix l.get l.get).trace.re / l.length)) ∧
      ∃ L : (Fin (p.xTimes τ).length → Fin p.ctrl.length → ℝ) →L[ℝ] ℝ,
        HasFDerivAt (fun V : Fin (p.xTimes τ).length → Fin p.ctrl.length → ℝ =>
          1 - (((p.final τ (rowsOf V)).submatrix l.get l.get)ᴴ *
            (p.final τ (rowsOf V)).submatrix l.get l.get).trace.re / l.length) L U ∧
          ∀ V, L V = ∑ t, ∑ k, g t k * V t k := by
  obtain ⟨g, h1, -, h3⟩ := total_gradient p τ hv hst hmeth happ hE hF hne hreach (leakRaw l)
    (fun tr => leakGrad l tr.fwd tr.dP tr.rev) (leakOf l) (fun fwd E h => by
      unfold leakRaw
      rw [last_ok h]
      rfl) (fun M hM => by
      have hM' : MatDiff fun U => (M U).submatrix l.get l.get := fun i j => hM (l.get i) (l.get j)
      have hM'' : MatDiff fun U => ((M U).submatrix l.get l.get)ᴴ := fun i j => (hM' j i).star
      have := Complex.reCLM.differentiable.comp (hM''.mul hM').trace
      unfold leakOf
      simp only [div_eq_mul_inv]
      exact Differentiable.const_sub (Differentiable.mul_const this _) _)
    (fun ps _ tr htr => leakRaw_gradient l p.init ps _ (List.length_pos_iff.mpr hv.1) tr htr) U
  refine ⟨g, h1, fun V s hs => ?_, h3⟩
  obtain ⟨f, s', k1, k2, -⟩ := hs.fwd hv hst
  obtain ⟨c, e1, -, -, e2⟩ := c49_range l hl hlne f _ (final_last k2) (final_unitary p τ hmeth hE hd hc hi (rowsOf V))
  unfold costOn
  rw [k1]
  rw [← e2]
  exact e1

end
end Verif.Cost
