import Verif.Sim.Model
import Verif.Transfer.Lengths
import Mathlib.Data.List.GetD
import Mathlib.Analysis.Calculus.Deriv.Basic
import Mathlib.Analysis.Calculus.Deriv.Add
import Mathlib.Analysis.Calculus.Deriv.Mul
import Mathlib.Analysis.Calculus.Deriv.Comp

/-! # Derivatives along curves of pulses (specification and helper lemmas for C55) -/

namespace Verif.Sim
open Verif Verif.Transfer

variable {p c f : Nat}

/-- Specification: `u' ` is the derivative of the curve of pulses `u` at `x` (all pulses on the curve have the same number of
time steps, every entry is differentiable). -/
structure CurveDeriv (u : ℝ → Pulse ℝ c) (u' : Pulse ℝ c) (x : ℝ) : Prop where
  len : ∀ h, (u h).length = u'.length
  deriv : ∀ t k, HasDerivAt (fun h => rowAt (u h) t k) (rowAt u' t k) x

theorem pairing_hasDerivAt {u : ℝ → Pulse ℝ c} {u' : Pulse ℝ c} {x : ℝ} (h : CurveDeriv u u' x) (g : Grads ℝ f c) (φ : Fin f) :
    HasDerivAt (fun h => pairing g (u h) φ) (pairing g u' φ) x := by
  have e : ∀ v : Pulse ℝ c, pairing g v φ = ∑ i ∈ Finset.range g.length, ∑ k, rowAt g i φ k * rowAt v i k :=
    fun v => pairing_eq_sum g v φ g.length (Or.inl le_rfl)
  simp only [e]
  apply HasDerivAt.fun_sum
  intro i _
  apply HasDerivAt.fun_sum
  intro k _
  exact (h.deriv i k).const_mul _

/-- The gradient array that is one at a single entry. -/
def indicator (n : Nat) (i : Nat) (k : Fin c) : Grads ℝ 1 c :=
  (List.range n).map fun i' _ k' => if i' = i ∧ k' = k then 1 else 0

theorem pairing_indicator (x : Pulse ℝ c) (i : Nat) (k : Fin c) (hi : i < x.length) :
    pairing (indicator x.length i k) x 0 = rowAt x i k := by
  rw [pairing_eq_sum _ _ _ x.length (Or.inr le_rfl), Finset.sum_eq_single i, Finset.sum_eq_single k]
  · rw [indicator, rowAt_map_range _ _ _ hi]; simp
  · intro k' _ hk'
    rw [indicator, rowAt_map_range _ _ _ hi]
    simp [hk']
  · simp
  · intro i' hi' hne
    rw [indicator, rowAt_map_range _ _ _ (Finset.mem_range.mp hi')]
    simp [hne]
  · intro h; exact absurd (Finset.mem_range.mpr hi) h

/-- A transfer function maps differentiable curves to differentiable curves, and its gradient is the adjoint of the
derivative. -/
theorem tf_curve (t : TF ℝ p) (hf : TF.Fits t) {y : ℝ → Pulse ℝ p} {y' : Pulse ℝ p} {h₀ : ℝ} (hy : CurveDeriv y y' h₀) {x₀ : Pulse ℝ p}
    (hx : t.run (y h₀) = .ok x₀) (g gy : Grads ℝ f p) (hg : g.length = x₀.length) (hb : t.back g = .ok gy) :
    ∃ (X : ℝ → Pulse ℝ p) (x' : Pulse ℝ p), (∀ h, t.run (y h) = .ok (X h)) ∧ X h₀ = x₀ ∧ CurveDeriv X x' h₀ ∧
      ∀ φ, pairing g x' φ = pairing gy y' φ := by
  have hlen : ∀ h, (y h).length = (y h₀).length := fun h => (hy.len h).trans (hy.len h₀).symm
  choose X hX hXl using fun h => run_len t (y h₀) (y h) x₀ (hlen h) hx
  have hX0 : X h₀ = x₀ := by
    have := hX h₀
    rw [hx] at this
    simpa using this.symm
  refine ⟨X, (List.range x₀.length).map fun i k => _root_.deriv (fun h => rowAt (X h) i k) h₀, hX, hX0, ?_⟩
  have hdiff : ∀ i k, DifferentiableAt ℝ (fun h => rowAt (X h) i k) h₀ := by
    intro i k
    by_cases hi : i < x₀.length
    · obtain ⟨he, hhe, -⟩ := back_len t g gy (indicator x₀.length i k) (by simp [indicator, hg]) hb
      have key : (fun h => rowAt (X h) i k) = fun h => (rowAt x₀ i k - pairing he (y h₀) 0) + pairing he (y h) 0 := by
        funext h
        have h1 := (adjoint_all t (y h) (y h₀) (X h) x₀ _ he 0 hf (hlen h) (hX h) hx hhe).1
        rw [pairing_indicator x₀ i k hi, ← hXl h, pairing_indicator (X h) i k (by rw [hXl h]; exact hi)] at h1
        linarith
      rw [key]
      exact ((pairing_hasDerivAt hy he 0).const_add _).differentiableAt
    · have key : (fun h => rowAt (X h) i k) = fun _ => 0 := by
        funext h
        unfold rowAt
        rw [List.getD_eq_default _ _ (by rw [hXl h]; omega)]
        rfl
      rw [key]
      exact differentiableAt_const _
  have hcd : CurveDeriv X ((List.range x₀.length).map fun i k => _root_.deriv (fun h => rowAt (X h) i k) h₀) h₀ := by
    refine ⟨fun h => by simp [hXl h], fun i k => ?_⟩
    by_cases hi : i < x₀.length
    · rw [rowAt_map_range _ _ _ hi]
      exact (hdiff i k).hasDerivAt
    · have key : (fun h => rowAt (X h) i k) = fun _ => 0 := by
        funext h
        unfold rowAt
        rw [List.getD_eq_default _ _ (by rw [hXl h]; omega)]
        rfl
      rw [key]
      have : rowAt ((List.range x₀.length).map fun i k => _root_.deriv (fun h => rowAt (X h) i k) h₀) i k = 0 := by
        unfold rowAt
        rw [List.getD_eq_default _ _ (by simp; omega)]
        rfl
      rw [this]
      exact hasDerivAt_const _ _
  refine ⟨hcd, fun φ => ?_⟩
  have h1 := pairing_hasDerivAt hcd g φ
  have h2 : (fun h => pairing g (X h) φ) = fun h => (pairing g x₀ φ - pairing gy (y h₀) φ) + pairing gy (y h) φ := by
    funext h
    have := (adjoint_all t (y h) (y h₀) (X h) x₀ g gy φ hf (hlen h) (hX h) hx hb).1
    linarith
  rw [h2] at h1
  exact h1.unique ((pairing_hasDerivAt hy gy φ).const_add _)

/-! ## Amplitude functions -/

/-- Specification: the derivative function of an amplitude function is its derivative.  A custom function has to act on every
time step separately (possibly differently), because its derivative array has a single time axis. -/
def AmpFunc.Correct : {p c : Nat} → AmpFunc p c → Prop
  | _, _, .identity => True
  | _, _, .unary v d => ∀ r, HasDerivAt v (d r) r
  | p, c, .custom v d => ∃ w : Nat → Nat → (Fin p → ℝ) → Fin c → ℝ, (∀ x, v x = x.mapIdx (w x.length)) ∧
      ∀ x, (d x).length = x.length ∧ ∀ t, t < x.length → ∀ (r : ℝ → Fin p → ℝ) (r' : Fin p → ℝ) (h₀ : ℝ), r h₀ = rowAt x t →
        (∀ m, HasDerivAt (fun h => r h m) (r' m) h₀) →
        ∀ j, HasDerivAt (fun h => w x.length t (r h) j) (∑ m, rowAt (d x) t m j * r' m) h₀

theorem rowAt_lt {α : Type} [Zero α] (l : List α) (t : Nat) (h : t < l.length) : rowAt l t = l[t] := by
  unfold rowAt; rw [List.getD_eq_getElem _ _ h]

theorem rowAt_ge {α : Type} [Zero α] (l : List α) (t : Nat) (h : l.length ≤ t) : rowAt l t = 0 := by
  unfold rowAt; rw [List.getD_eq_default _ _ h]

/-- The chain rule of the amplitude functions. -/
theorem amp_curve : ∀ {p c : Nat} (a : AmpFunc p c), a.Correct → ∀ {x : ℝ → Pulse ℝ p} {x' : Pulse ℝ p} {h₀ : ℝ},
    CurveDeriv x x' h₀ → ∀ (g : Grads ℝ f c) (gx : Grads ℝ f p), a.chain g (x h₀) = .ok gx →
    ∃ u' : Pulse ℝ c, CurveDeriv (fun h => a.call (x h)) u' h₀ ∧ ∀ φ, pairing g u' φ = pairing gx x' φ := by
  intro p c a ha x x' h₀ hx g gx hg
  cases a with
  | identity =>
    simp only [AmpFunc.chain, Except.ok.injEq] at hg
    subst hg
    exact ⟨x', hx, fun φ => rfl⟩
  | unary v d =>
    simp only [AmpFunc.chain] at hg
    split at hg
    case isFalse => simp at hg
    rename_i hl
    simp only [Except.ok.injEq] at hg
    subst hg
    have hl0 := hx.len h₀
    refine ⟨List.zipWith (fun r r' k => d (r k) * r' k) (x h₀) x', ⟨?_, ?_⟩, ?_⟩
    · intro h
      simp [AmpFunc.call, hx.len h, hl0]
    · intro t k
      by_cases ht : t < x'.length
      · have e1 : ∀ h, rowAt ((AmpFunc.unary v d : AmpFunc p p).call (x h)) t k = v (rowAt (x h) t k) := by
          intro h
          have hth : t < (x h).length := by rw [hx.len h]; exact ht
          rw [rowAt_lt _ _ (by simpa [AmpFunc.call] using hth), rowAt_lt _ _ hth]
          exact congrFun (List.getElem_map _) k
        have e2 : rowAt (List.zipWith (fun (r r' : Row ℝ p) k => d (r k) * r' k) (x h₀) x') t k =
            d (rowAt (x h₀) t k) * rowAt x' t k := by
          rw [rowAt_lt _ _ (by simp [hl0, ht]), rowAt_lt _ _ (by rw [hl0]; exact ht), rowAt_lt _ _ ht]
          simp
        simp only [e1, e2]
        exact (ha _).comp h₀ (hx.deriv t k)
      · have e1 : ∀ h, rowAt ((AmpFunc.unary v d : AmpFunc p p).call (x h)) t k = 0 := by
          intro h
          rw [rowAt_ge _ _ (by simp [AmpFunc.call, hx.len h]; omega)]
          rfl
        have e2 : rowAt (List.zipWith (fun (r r' : Row ℝ p) k => d (r k) * r' k) (x h₀) x') t k = 0 := by
          rw [rowAt_ge _ _ (by simp [hl0]; omega)]
          rfl
        simp only [e1, e2]
        exact hasDerivAt_const _ _
    · intro φ
      rw [pairing_eq_sum g _ φ g.length (Or.inl le_rfl), pairing_eq_sum _ x' φ g.length (Or.inl (by simp))]
      refine Finset.sum_congr rfl fun i hi => Finset.sum_congr rfl fun k _ => ?_
      have hi' := Finset.mem_range.mp hi
      rw [rowAt_lt _ _ (show i < (List.zipWith (fun (r r' : Row ℝ p) k => d (r k) * r' k) (x h₀) x').length by
          simp [hl0] at hl ⊢; omega),
        rowAt_lt _ _ (show i < (List.zipWith (fun (r : Row ℝ p) (gr : Fin f → Fin p → ℝ) φ j => d (r j) * gr φ j) (x h₀) g).length by
          simp; omega),
        rowAt_lt g _ hi', rowAt_lt x' _ (by omega)]
      simp only [List.getElem_zipWith]
      ring
  | custom v d =>
    obtain ⟨w, hv, hd⟩ := ha
    simp only [AmpFunc.chain] at hg
    split at hg
    case isFalse => simp at hg
    rename_i hl
    simp only [Except.ok.injEq] at hg
    subst hg
    have hl0 := hx.len h₀
    obtain ⟨hdl, hdd⟩ := hd (x h₀)
    refine ⟨(List.range x'.length).map fun t j => ∑ m, rowAt (d (x h₀)) t m j * rowAt x' t m, ⟨?_, ?_⟩, ?_⟩
    · intro h
      simp [AmpFunc.call, hv, hx.len h]
    · intro t k
      by_cases ht : t < x'.length
      · have e1 : ∀ h, rowAt ((AmpFunc.custom v d : AmpFunc p c).call (x h)) t k = w (x h₀).length t (rowAt (x h) t) k := by
          intro h
          have hth : t < (x h).length := by rw [hx.len h]; exact ht
          rw [rowAt_lt _ _ (by simpa [AmpFunc.call, hv] using hth), rowAt_lt _ _ hth]
          have e3 : (AmpFunc.custom v d : AmpFunc p c).call (x h) = List.mapIdx (w (x h₀).length) (x h) := by
            simp only [AmpFunc.call, hv, hx.len h, hl0]
          have e4 : ∀ (l : Pulse ℝ c) (ht' : t < l.length) (_ : l = List.mapIdx (w (x h₀).length) (x h)),
              l[t] k = w (x h₀).length t (x h)[t] k := by
            intro l ht' hl'
            subst hl'
            exact congrFun (List.getElem_mapIdx) k
          exact e4 _ _ e3
        simp only [e1]
        rw [rowAt_map_range _ _ _ ht]
        exact hdd t (by rw [hl0]; exact ht) (fun h => rowAt (x h) t) (rowAt x' t) h₀ rfl (fun m => hx.deriv t m) k
      · have e1 : ∀ h, rowAt ((AmpFunc.custom v d : AmpFunc p c).call (x h)) t k = 0 := by
          intro h
          rw [rowAt_ge _ _ (by simp [AmpFunc.call, hv, hx.len h]; omega)]
          rfl
        simp only [e1]
        rw [rowAt_ge _ _ (by simp; omega)]
        exact hasDerivAt_const _ _
    · intro φ
      rw [pairing_eq_sum g _ φ g.length (Or.inl le_rfl), pairing_eq_sum _ x' φ g.length (Or.inl (by simp))]
      refine Finset.sum_congr rfl fun i hi => ?_
      have hi' := Finset.mem_range.mp hi
      rw [rowAt_map_range _ _ _ (by omega), rowAt_lt (d (x h₀)) i (by omega), rowAt_lt g i hi']
      have e2 : rowAt (List.zipWith (fun (dr : Fin p → Fin c → ℝ) (gr : Fin f → Fin c → ℝ) φ m => ∑ j, dr m j * gr φ j)
          (d (x h₀)) g) i = fun φ m => ∑ j, (d (x h₀))[i] m j * g[i] φ j := by
        rw [rowAt_lt _ _ (by simp; omega)]
        simp
      rw [e2]
      simp only [Finset.mul_sum, Finset.sum_mul]
      rw [Finset.sum_comm]
      refine Finset.sum_congr rfl fun m _ => Finset.sum_congr rfl fun j _ => ?_
      ring

end Verif.Sim
