import Mathlib.Data.List.GetD
import Mathlib.Algebra.BigOperators.Group.List.Basic
import Mathlib.Tactic.Ring
import Mathlib.Tactic.Module
import Mathlib.Tactic.NoncommRing
import Verif.Operator.ExpThms
import Verif.Operator.DexpThms
import Verif.Solver.Model

/-!
# Lemmas about the solver model
-/

namespace Verif.Solver
open Verif Verif.Operator Matrix

section
variable {n m : Type} [Fintype n] [DecidableEq n]

/-! ## Numerical routines meeting all contracts exist -/

theorem lapack_exists (n : Type) [Fintype n] [DecidableEq n] :
    ∃ L : Lapack n, L.EighOk ∧ L.EigOk ∧ L.ExpmOk ∧ L.FrechetOk := by
  obtain ⟨L1, h1⟩ := eighOk_exists n
  obtain ⟨L2, h2⟩ := eigOk_exists n
  have h3 : ∀ A D : Matrix n n ℂ, ∃ g, MatDeriv (fun x : ℝ => NormedSpace.exp (A + (x : ℂ) • D)) g 0 :=
    fun A D => ⟨_, matDeriv_exp_line A D⟩
  choose f hf using h3
  exact ⟨⟨L1.eigh, L2.eig, NormedSpace.exp, f⟩, h1, h2, fun A => rfl, hf⟩

/-! ## `fill` -/

theorem fill_length {α : Type} (d : α) (l : List (Except PyErr α)) : (fill d l).1.length = l.length := by
  induction l with
  | nil => rfl
  | cons x l ih => cases x <;> simp [fill, ih]

theorem fill_map_ok {α β : Type} (d : α) (l : List β) (f : β → Except PyErr α) (g : β → α)
    (h : ∀ t ∈ l, f t = .ok (g t)) : fill d (l.map f) = (l.map g, none) := by
  induction l with
  | nil => rfl
  | cons x l ih =>
    simp only [List.map_cons, h x (by simp), fill]
    rw [ih fun t ht => h t (by simp [ht])]

theorem fill_none {α : Type} {d : α} {l : List (Except PyErr α)} (h : (fill d l).2 = none) :
    l = (fill d l).1.map .ok := by
  induction l with
  | nil => rfl
  | cons x l ih =>
    cases x with
    | error e => simp [fill] at h
    | ok a => simp only [fill] at h ⊢; rw [List.map_cons, ← ih h]

/-! ## Generators -/

theorem addCtrl_length (H : Matrix n n ℂ) (Gs : List (Matrix n n ℂ)) (as : List ℝ) :
    (addCtrl H Gs as).length = Gs.length := by
  induction Gs generalizing as with
  | nil => cases as <;> rfl
  | cons G Gs ih => cases as <;> simp [addCtrl, ih]

theorem addCtrl_getElem (H : Matrix n n ℂ) (Gs : List (Matrix n n ℂ)) (as : List ℝ) (t : Nat) (G : Matrix n n ℂ)
    (a : ℝ) (hG : Gs[t]? = some G) (ha : as[t]? = some a) :
    (addCtrl H Gs as)[t]? = some (G + (-Complex.I * (a : ℂ)) • H) := by
  induction Gs generalizing as t with
  | nil => simp at hG
  | cons G' Gs ih =>
    cases as with
    | nil => simp at ha
    | cons a' as =>
      cases t with
      | zero => simp at hG ha; subst hG ha; simp [addCtrl]
      | succ t => simpa [addCtrl] using ih as t (by simpa using hG) (by simpa using ha)

theorem addCtrls_length (u : Pulse) (c : Nat) (Hs Gs : List (Matrix n n ℂ)) :
    (addCtrls u c Hs Gs).length = Gs.length := by
  induction Hs generalizing c Gs with
  | nil => rfl
  | cons H Hs ih => rw [addCtrls, ih, addCtrl_length]

theorem schroedGens_length (drift ctrl : List (Matrix n n ℂ)) (u : Pulse) :
    (schroedGens drift ctrl u).length = drift.length := by
  simp [schroedGens, addCtrls_length]

/-- Specification of the Hamiltonian at one time step: drift plus amplitude times control operator. -/
def hamiltonian (H0 : Matrix n n ℂ) (ctrl : List (Matrix n n ℂ)) (row : List ℝ) : Matrix n n ℂ :=
  H0 + (List.zipWith (fun (a : ℝ) H => (a : ℂ) • H) row ctrl).sum

theorem addCtrls_getElem (u : Pulse) (c : Nat) (Hs Gs : List (Matrix n n ℂ)) (t : Nat) (G : Matrix n n ℂ)
    (row : List ℝ) (hG : Gs[t]? = some G) (hrow : u[t]? = some row) (hlen : c + Hs.length ≤ row.length) :
    (addCtrls u c Hs Gs)[t]? =
      some (G + (-Complex.I) • (List.zipWith (fun (a : ℝ) H => (a : ℂ) • H) (row.drop c) Hs).sum) := by
  induction Hs generalizing c Gs G with
  | nil => simp [addCtrls, hG]
  | cons H Hs ih =>
    simp only [List.length_cons] at hlen
    have hc : c < row.length := by omega
    have hcol : (column u c)[t]? = some row[c] := by
      simp [column, hrow, List.getElem?_eq_getElem hc]
    rw [addCtrls, ih (c + 1) _ _ (addCtrl_getElem H Gs _ t G _ hG hcol) (by omega)]
    rw [List.drop_eq_getElem_cons hc]
    simp only [List.zipWith_cons_cons, List.sum_cons]
    congr 1
    rw [smul_add, smul_smul, add_assoc]

theorem schroedGens_getElem (drift ctrl : List (Matrix n n ℂ)) (u : Pulse) (t : Nat) (H0 : Matrix n n ℂ)
    (row : List ℝ) (hd : drift[t]? = some H0) (hrow : u[t]? = some row) (hlen : row.length = ctrl.length) :
    (schroedGens drift ctrl u)[t]? = some ((-Complex.I) • hamiltonian H0 ctrl row) := by
  rw [schroedGens, addCtrls_getElem u 0 ctrl _ t ((-Complex.I) • H0) row (by simp [hd]) hrow (by omega),
    hamiltonian, smul_add, List.drop_zero]

theorem hamiltonian_isHermitian {H0 : Matrix n n ℂ} {ctrl : List (Matrix n n ℂ)} (row : List ℝ)
    (h0 : H0.IsHermitian) (hc : ∀ H ∈ ctrl, H.IsHermitian) : (hamiltonian H0 ctrl row).IsHermitian := by
  refine h0.add ?_
  induction ctrl generalizing row with
  | nil => simp
  | cons H Hs ih =>
    cases row with
    | nil => simp
    | cons a row =>
      simp only [List.zipWith_cons_cons, List.sum_cons]
      refine Matrix.IsHermitian.add ?_ (ih row fun H hH => hc H (by simp [hH]))
      rw [Matrix.IsHermitian, Matrix.conjTranspose_smul, hc H (by simp)]
      simp

theorem skew_of_hermitian {H : Matrix n n ℂ} (h : H.IsHermitian) : ((-Complex.I) • H)ᴴ = -((-Complex.I) • H) := by
  rw [Matrix.conjTranspose_smul, h.eq]
  simp

/-! ## One time step -/

/-- The propagator `dexp` returns. -/
noncomputable def dexpProp (L : Lapack n) (method : Method) (skew : Bool) (G : Matrix n n ℂ) (τ : ℝ) : Matrix n n ℂ :=
  match method with
  | .frechet => L.expm ((τ : ℂ) • G)
  | .spectral => expDiagonalize L G τ skew
  | _ => expDiagonalize L G τ false

/-- The propagator `exp` returns. -/
noncomputable def expProp (L : Lapack n) (method : Method) (skew : Bool) (G : Matrix n n ℂ) (τ : ℝ) : Matrix n n ℂ :=
  match Operator.exp L G τ method skew with
  | .ok P => P
  | .error _ => 0

theorem exp_expProp (L : Lapack n) {method : Method} (hm : method ≠ .other) (skew : Bool) (G : Matrix n n ℂ)
    (τ : ℝ) : Operator.exp L G τ method skew = .ok (expProp L method skew G τ) := by
  cases method <;> first | rfl | exact absurd rfl hm

/-- The gradient `dexp` returns. -/
noncomputable def dexpGrad (L : Lapack n) (method : Method) (skew : Bool) (G D : Matrix n n ℂ) (τ : ℝ) :
    Option (Matrix n n ℂ) :=
  match dexp L G D τ true method skew dexpEps with
  | .ok r => r.grad
  | .error _ => none

theorem dexp_eq (L : Lapack n) {method : Method} (hm : method ≠ .other) (skew : Bool) (G D : Matrix n n ℂ) (τ : ℝ) :
    dexp L G D τ true method skew dexpEps =
      .ok ⟨some (dexpProp L method skew G τ), dexpGrad L method skew G D τ⟩ := by
  cases method with
  | frechet => rfl
  | spectral => simp [dexp, dexpGrad, dexpProp, dexpDiagonalization, expDiagonalize, expEinsum_eq]
  | other => exact absurd rfl hm
  | _ => simp [dexp, dexpGrad, dexpProp, Operator.exp, pure, Except.pure, bind, Except.bind]

theorem expProp_eq_dexpProp (L : Lapack n) {method : Method} (hm : method = .spectral ∨ method = .frechet)
    (skew : Bool) (G : Matrix n n ℂ) (τ : ℝ) : expProp L method skew G τ = dexpProp L method skew G τ := by
  rcases hm with rfl | rfl <;> rfl

theorem stepControls_ok (cfg : Cfg n m) (hm : cfg.method ≠ .other) (G : Matrix n n ℂ) (τ : ℝ)
    (Ds : List (Matrix n n ℂ)) (p : Option (Matrix n n ℂ)) :
    stepControls cfg G τ Ds p = .ok (if Ds = [] then p else some (dexpProp cfg.L cfg.method cfg.skew G τ),
      Ds.map fun D => dexpGrad cfg.L cfg.method cfg.skew G D τ) := by
  induction Ds generalizing p with
  | nil => rfl
  | cons D Ds ih =>
    rw [stepControls, dexp_eq _ hm]
    simp only [bind, Except.bind, ih, pure, Except.pure]
    by_cases h : Ds = [] <;> simp [h]

theorem stepControls_other (cfg : Cfg n m) (hm : cfg.method = .other) (G : Matrix n n ℂ) (τ : ℝ)
    (D : Matrix n n ℂ) (Ds : List (Matrix n n ℂ)) (p : Option (Matrix n n ℂ)) :
    stepControls cfg G τ (D :: Ds) p = .error .notImplementedError := by
  rw [stepControls, hm]; rfl

/-! ## Loops over the propagators -/

theorem fwdLoop_some (ps : List (Matrix n n ℂ)) (s : Matrix n m ℂ) :
    (fwdLoop (ps.map some) s).2 = none ∧ (fwdLoop (ps.map some) s).1.length = ps.length := by
  induction ps generalizing s with
  | nil => exact ⟨rfl, rfl⟩
  | cons P ps ih => simp [fwdLoop, ih]

theorem revLoop_some (ps : List (Matrix n n ℂ)) (s : Matrix n n ℂ) :
    (revLoop (ps.map some) s).2 = none ∧ (revLoop (ps.map some) s).1.length = ps.length := by
  induction ps generalizing s with
  | nil => exact ⟨rfl, rfl⟩
  | cons P ps ih => simp [revLoop, ih]

theorem fwdLoop_none {l : List (Option (Matrix n n ℂ))} {s : Matrix n m ℂ} (h : (fwdLoop l s).2 = none) :
    ∃ ps : List (Matrix n n ℂ), l = ps.map some := by
  induction l generalizing s with
  | nil => exact ⟨[], rfl⟩
  | cons o l ih =>
    cases o with
    | none => simp [fwdLoop] at h
    | some P => obtain ⟨ps, rfl⟩ := ih (s := P * s) (by simpa [fwdLoop] using h); exact ⟨P :: ps, rfl⟩

end
end Verif.Solver
