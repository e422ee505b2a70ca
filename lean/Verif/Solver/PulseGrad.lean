import Verif.Solver.PulseSeq
import Verif.Solver.PropThms
import Mathlib.Analysis.Calculus.Deriv.Add
import Mathlib.Analysis.Calculus.Deriv.Mul

/-!
# C113: the gradient of the filter function infidelity

The package `filter_functions` is a parameter: a function for the infidelities and one for their derivatives.
-/

namespace Verif.Solver
open Verif Verif.Operator Matrix

/-- Derivatives of the noise susceptibilities: noise term, control, time. -/
abbrev Susc := List (List (List ℝ))

/-- `filter_function_n_coeffs_deriv`: absent, with the three documented arguments, or with one. -/
inductive DerivSpec where
  | none
  | three (f : Option Pulse → Option Pulse → Option Pulse → Susc)
  | one (f : Option Pulse → Susc)

/-- What the cost function hands to `filter_functions.gradient.infidelity_derivative`. -/
structure GArgs (n B Ω : Type) where
  pulse : Seq n B
  omega : Ω
  ctrlIds : List String
  ids : List String
  deriv : Option Susc

/-- The package: the infidelity of each noise term (`numeric.infidelity`), and its derivatives by noise term, time and control
(`gradient.infidelity_derivative`), or an exception.  The spectrum is evaluated at the frequencies handed over and belongs to the
package here. -/
structure Pkg (n B Ω : Type) where
  infid : Args n B Ω → List ℝ
  grad : GArgs n B Ω → Except PyErr (List (List (List ℝ)))

section
variable {n m B Ω : Type} [Fintype n] [DecidableEq n]

/-- `filter_function_n_coeffs_deriv_vals`, solver_algorithms.py:536-561. -/
def derivVals (dv : DerivSpec) (s : St n m) : Option Susc :=
  match dv with
  | .none => none
  | .three f => some (f s.optPars s.xPars s.amps)
  | .one f => some (f s.amps)

/-- `derivative.transpose(1, 0, 2)` of an array with the axes noise term, time and control. -/
def transpose102 (a : List (List (List ℝ))) : List (List (List ℝ)) :=
  (List.range (a.headD []).length).map fun t => a.map fun r => r.getD t []

/-- `OperatorFilterFunctionInfidelity.grad` up to the call of the package, cost_functions.py:1609-1624. -/
noncomputable def ffGradArgs (F : FCfg n m B Ω) (dv : DerivSpec) (w : FSt n m B Ω) : Except PyErr (GArgs n B Ω) × FSt n m B Ω :=
  let r : Option PyErr × FSt n m B Ω := match w.seq with
    | none => createSeq F none none w
    | some _ => (none, w)
  match r with
  | (some e, w) => (.error e, w)
  | (none, w) => match w.seq with
    | none => (.error .attributeError, w)
    | some q =>
      let cId := (List.range F.hCtrl.length).map fun i => "Control" ++ toString i
      let om := w.omega.getD (F.freqs q)
      (.ok ⟨q, om, cId, w.ids, derivVals dv w.s⟩, { w with omega := some om })

/-- `OperatorFilterFunctionInfidelity.grad`, cost_functions.py:1598-1628. -/
noncomputable def ffGrad (F : FCfg n m B Ω) (dv : DerivSpec) (P : Pkg n B Ω) (w : FSt n m B Ω) :
    Except PyErr (List (List (List ℝ))) × FSt n m B Ω :=
  match ffGradArgs F dv w with
  | (.error e, w) => (.error e, w)
  | (.ok a, w) => match P.grad a with
    | .error e => (.error e, w)
    | .ok d => (.ok (transpose102 d), w)

/-- `OperatorFilterFunctionInfidelity.costs`, cost_functions.py:1576-1596. -/
noncomputable def ffInfid (F : FCfg n m B Ω) (P : Pkg n B Ω) (w : FSt n m B Ω) : Except PyErr (List ℝ) :=
  (ffCosts F w).1.map P.infid

/-! ## Specification -/

/-- The sequence of a pulse: each control with its time trace, the noise terms, times and basis. -/
def seqOf (ctrl : List (Matrix n n ℂ)) (u : Pulse) (noise : List (Matrix n n ℂ × List ℝ × String)) (dt : List ℝ) (basis : Option B) :
    Seq n B :=
  ⟨(List.range ctrl.length).map fun c => (ctrl.getD c 0, column u c, "Control" ++ toString c), noise, dt, basis⟩

/-- A family of noise terms in which only the coefficients vary, and only those at time `t`, with the derivatives `d`. -/
structure NoiseDeriv (noise : ℝ → List (Matrix n n ℂ × List ℝ × String)) (t : Nat) (d : Nat → ℝ) : Prop where
  opers : ∀ x, (noise x).map (fun q => (q.1, q.2.2)) = (noise 0).map fun q => (q.1, q.2.2)
  lengths : ∀ x, (noise x).map (fun q => q.2.1.length) = (noise 0).map fun q => q.2.1.length
  coeffs : ∀ j k, HasDerivAt (fun x => (((noise x).getD j (0, [], "")).2.1).getD k 0) (if k = t then d j else 0) 0

/-- What the package promises of its derivatives: the entry for noise term `f`, time `t` and control `c` is the derivative of the
infidelity of `f` when the amplitude of `c` at time `t` changes, together with the noise susceptibilities at that time according to
the derivatives it was given. -/
def Pkg.Correct (P : Pkg n B Ω) : Prop :=
  ∀ (ctrl : List (Matrix n n ℂ)) (u : Pulse) (noise : ℝ → List (Matrix n n ℂ × List ℝ × String)) (dt : List ℝ) (basis : Option B)
    (om : Ω) (D : Option Susc) (d : List (List (List ℝ))) (f t c : Nat),
    P.grad ⟨seqOf ctrl u (noise 0) dt basis, om, (List.range ctrl.length).map fun i => "Control" ++ toString i,
      (noise 0).map (·.2.2), D⟩ = .ok d →
    u.length = dt.length → (∀ row ∈ u, row.length = ctrl.length) → f < (noise 0).length → t < dt.length → c < ctrl.length →
    NoiseDeriv noise t (fun j => match D with | none => 0 | some D => ((D.getD j []).getD c []).getD t 0) →
    HasDerivAt (fun x => (P.infid ⟨seqOf ctrl (bump u t c x) (noise x) dt basis, om, (noise x).map (·.2.2)⟩).getD f 0)
      (((d.getD f []).getD t []).getD c 0) 0

/-- The result of the package has the axes noise term, time, control. -/
def Pkg.Shape (P : Pkg n B Ω) : Prop :=
  ∀ a d, P.grad a = .ok d → d.length = a.pulse.noise.length ∧ ∀ r ∈ d, r.length = a.pulse.dt.length

/-! ## Theorems -/

omit [Fintype n] [DecidableEq n] in
/-- The gradient prepares the same arguments as the cost function. -/
theorem ffGradArgs_eq (F : FCfg n m B Ω) (dv : DerivSpec) (w : FSt n m B Ω) :
    (ffGradArgs F dv w).2 = (ffCosts F w).2 ∧
    (∀ e, (ffGradArgs F dv w).1 = .error e ↔ (ffCosts F w).1 = .error e) ∧
    ∀ a, (ffCosts F w).1 = .ok a → (ffGradArgs F dv w).1 = .ok ⟨a.pulse, a.omega,
      (List.range F.hCtrl.length).map fun i => "Control" ++ toString i, a.ids, derivVals dv (ffCosts F w).2.s⟩ := by
  have key : ∀ r : Option PyErr × FSt n m B Ω,
      let x : Except PyErr (GArgs n B Ω) × FSt n m B Ω := match r with
        | (some e, w) => (.error e, w)
        | (none, w) => match w.seq with
          | none => (.error .attributeError, w)
          | some q => (.ok ⟨q, w.omega.getD (F.freqs q), (List.range F.hCtrl.length).map fun i => "Control" ++ toString i, w.ids,
              derivVals dv w.s⟩, { w with omega := some (w.omega.getD (F.freqs q)) })
      let y : Except PyErr (Args n B Ω) × FSt n m B Ω := match r with
        | (some e, w) => (.error e, w)
        | (none, w) => match w.seq with
          | none => (.error .attributeError, w)
          | some q => (.ok ⟨q, w.omega.getD (F.freqs q), w.ids⟩, { w with omega := some (w.omega.getD (F.freqs q)) })
      x.2 = y.2 ∧ (∀ e, x.1 = .error e ↔ y.1 = .error e) ∧ ∀ a, y.1 = .ok a → x.1 = .ok ⟨a.pulse, a.omega,
        (List.range F.hCtrl.length).map fun i => "Control" ++ toString i, a.ids, derivVals dv y.2.s⟩ := by
    rintro ⟨e, w⟩
    cases e with
    | some e => exact ⟨rfl, fun e => by simp, fun a ha => by simp at ha⟩
    | none =>
      simp only
      split
      · exact ⟨rfl, fun e => by simp, fun a ha => by simp at ha⟩
      · refine ⟨rfl, fun e => by simp, fun a ha => ?_⟩
        simp only [Except.ok.injEq] at ha
        subst ha
        rfl
  exact key _

omit [Fintype n] [DecidableEq n] in
theorem buildSeq_s (F : FCfg n m B Ω) (b : Option B) (u : Pulse) (w : FSt n m B Ω) : (buildSeq F b u w).2.s = w.s := by
  unfold buildSeq
  simp only
  split
  · rfl
  · split
    · rfl
    · split
      · split <;> rfl
      · rfl

omit [Fintype n] [DecidableEq n] in
theorem ffCosts_s (F : FCfg n m B Ω) (w : FSt n m B Ω) : (ffCosts F w).2.s = w.s := by
  have hc : (createSeq F none none w).2.s = w.s := by
    unfold createSeq
    simp only
    cases hu : w.s.amps with
    | none => rfl
    | some u => simp only [hu]; exact buildSeq_s F none u w
  have key : ∀ r : Option PyErr × FSt n m B Ω, r.2.s = w.s → (match r with
      | (some e, w) => ((.error e : Except PyErr (Args n B Ω)), w)
      | (none, w) => match w.seq with
        | none => (.error .attributeError, w)
        | some q => (.ok ⟨q, w.omega.getD (F.freqs q), w.ids⟩, { w with omega := some (w.omega.getD (F.freqs q)) })).2.s = w.s := by
    rintro ⟨e, v⟩ h
    cases e with
    | some e => exact h
    | none => simp only; split <;> exact h
  unfold ffCosts
  refine key _ ?_
  split
  · exact hc
  · rfl

/-- **C113** The arguments of the gradient: after any history the package receives the pulse sequence, the frequencies and the noise
identifiers of the cost function, the identifiers of the controls in the order of the control operators, and the derivatives of the
susceptibilities for the current pulse. -/
theorem c113_arguments (F : FCfg n m B Ω) (hc : F.cfg.nCtrl = F.hCtrl.length) (dv : DerivSpec) (τ : List ℝ) (om : Option Ω)
    (ops : List (FOp B)) (a : Args n B Ω) (ha : (ffCosts F (fExec F ops (fConstruct F τ om))).1 = .ok a) :
    let s := (fExec F ops (fConstruct F τ om)).s
    ∃ (g : GArgs n B Ω) (u : Pulse), (ffGradArgs F dv (fExec F ops (fConstruct F τ om))).1 = .ok g ∧
      g.pulse = a.pulse ∧ g.omega = a.omega ∧ g.ids = a.ids ∧ g.ctrlIds = a.pulse.controls.map (·.2.2) ∧ s.amps = some u ∧
      (dv = .none → g.deriv = none) ∧ (∀ f, dv = .three f → g.deriv = some (f s.optPars s.xPars (some u))) ∧
      ∀ f, dv = .one f → g.deriv = some (f (some u)) := by
  intro s
  obtain ⟨⟨u, hd⟩, -, -⟩ := ffCosts_ok hc (fExec_inv hc ops _ (construct_inv F τ om)) ha
  refine ⟨_, u, (ffGradArgs_eq F dv _).2.2 a ha, rfl, rfl, rfl, ?_, hd.amps, ?_, ?_, ?_⟩
  · rw [hd.controls, List.map_map]
    rfl
  · rintro rfl; rfl
  · rintro f rfl
    rw [ffCosts_s]
    show some (f s.optPars s.xPars s.amps) = _
    rw [hd.amps]
  · rintro f rfl
    rw [ffCosts_s]
    show some (f s.amps) = _
    rw [hd.amps]

omit [Fintype n] [DecidableEq n] in
/-- **C113** The layout: entry (time, noise term, control) of the gradient is the entry (noise term, time, control) of the package. -/
theorem c113_layout (F : FCfg n m B Ω) (dv : DerivSpec) (P : Pkg n B Ω) (hP : P.Shape) (w : FSt n m B Ω) (g : GArgs n B Ω)
    (hg : (ffGradArgs F dv w).1 = .ok g) (hn : g.pulse.noise ≠ []) (d : List (List (List ℝ))) (hd : P.grad g = .ok d) :
    ∃ G, (ffGrad F dv P w).1 = .ok G ∧ G.length = g.pulse.dt.length ∧ (∀ r ∈ G, r.length = g.pulse.noise.length) ∧
      ∀ t f c, t < g.pulse.dt.length → f < g.pulse.noise.length →
        ((G.getD t []).getD f []).getD c 0 = ((d.getD f []).getD t []).getD c 0 := by
  obtain ⟨h1, h2⟩ := hP g d hd
  have hlen : (d.headD []).length = g.pulse.dt.length := by
    cases d with
    | nil =>
      exfalso
      apply hn
      exact List.length_eq_zero_iff.mp h1.symm
    | cons r d => exact h2 r List.mem_cons_self
  refine ⟨transpose102 d, ?_, by unfold transpose102; rw [hlen]; simp, ?_, ?_⟩
  · unfold ffGrad
    rcases hh : ffGradArgs F dv w with ⟨r, w'⟩
    rw [hh] at hg
    simp only at hg
    subst hg
    simp only [hd]
  · intro r hr
    obtain ⟨t, -, rfl⟩ := List.mem_map.mp hr
    simpa using h1
  · intro t f c ht hf
    have hf' : f < d.length := by rw [h1]; exact hf
    unfold transpose102
    rw [hlen]
    simp [List.getD_eq_getElem?_getD, List.getElem?_range ht, hf']

/-- **C113** The gradient is the derivative of the cost: for every solver, every control and time step, and every family of histories
after which the amplitudes differ in one entry, if the package fulfils its contract and the derivatives of the susceptibilities
given by the user are right, then the entries of the gradient are the derivatives of the infidelities. -/
theorem c113_derivative (F : FCfg n m B Ω) (hk : F.kind = .base) (hc : F.cfg.nCtrl = F.hCtrl.length) (dv : DerivSpec) (P : Pkg n B Ω)
    (hP : P.Correct) (hS : P.Shape) (τ : List ℝ) (o : Ω) (ops : ℝ → List (FOp B))
    (hops : ∀ x new b, FOp.create new b ∈ ops x → b = none) (u : Pulse) (t c : Nat) (dt : List ℝ) (hul : u.length = dt.length)
    (hur : ∀ row ∈ u, row.length = F.hCtrl.length) (ht : t < dt.length)
    (hcc : c < F.hCtrl.length) (noise : ℝ → List (Matrix n n ℂ × List ℝ × String)) (hne : noise 0 ≠ [])
    (W : ℝ → FSt n m B Ω) (hW : ∀ x, W x = fExec F (ops x) (fConstruct F τ (some o)))
    (hu : ∀ x, (W x).s.amps = some (bump u t c x)) (hdt : ∀ x, (W x).s.times = dt)
    (hnoise : ∀ x, userTerms F.spec (W x).s.optPars (W x).s.xPars (bump u t c x) = (noise x).map fun q => .ok q.1 q.2.1 q.2.2)
    (hder : NoiseDeriv noise t fun j => match derivVals dv (W 0).s with | none => 0 | some D => ((D.getD j []).getD c []).getD t 0)
    (hok : ∀ x, ∃ a, (ffCosts F (W x)).1 = .ok a) (hg : ∀ g, (ffGradArgs F dv (W 0)).1 = .ok g → ∃ d, P.grad g = .ok d) :
    ∃ (G : List (List (List ℝ))) (cost : ℝ → List ℝ), (ffGrad F dv P (W 0)).1 = .ok G ∧ (∀ x, ffInfid F P (W x) = .ok (cost x)) ∧
      ∀ f, f < (noise 0).length → HasDerivAt (fun x => (cost x).getD f 0) (((G.getD t []).getD f []).getD c 0) 0 := by
  choose a ha using hok
  have hlen : ∀ x, (noise x).length = (noise 0).length := fun x => by
    have := congrArg List.length (hder.opers x)
    simpa using this
  have hargs : ∀ x, a x = ⟨seqOf F.hCtrl (bump u t c x) (noise x) dt F.basis, o, (noise x).map (·.2.2)⟩ := by
    intro x
    have hx := ha x
    rw [hW x] at hx
    obtain ⟨u', h1, h2, h3, h4, -, h6⟩ := c87_arguments_partial F hk hc τ (some o) (ops x) (a x) hx
    have h7 := c87_frequencies_partial F τ o (ops x) (a x) hx
    have h8 := c87_basis_partial F τ (some o) (ops x) (hops x) (a x) hx
    rw [← hW x] at h1 h2 h4
    rw [hu x, Option.some.injEq] at h1
    subst h1
    rw [hdt x] at h2
    rw [hnoise x] at h4
    have h9 : (a x).pulse.noise = noise x := by
      have hne' : ((noise x).map fun q => (Term.ok q.1 q.2.1 q.2.2 : Term n)) ≠ [] := by
        intro h0
        rw [List.map_eq_nil_iff] at h0
        apply hne
        rw [← List.length_eq_zero_iff, ← hlen x, h0]
        rfl
      have h5 := h4 hne'
      have hinj : Function.Injective fun q : Matrix n n ℂ × List ℝ × String => (Term.ok q.1 q.2.1 q.2.2 : Term n) := by
        rintro ⟨p1, p2, p3⟩ ⟨q1, q2, q3⟩ h
        simp only [Term.ok.injEq] at h
        obtain ⟨rfl, rfl, rfl⟩ := h
        rfl
      exact hinj.list_map h5
    rw [h9] at h6
    rcases e : a x with ⟨⟨p1, p2, p3, p4⟩, om, ids⟩
    rw [e] at h2 h3 h6 h7 h8 h9
    simp only at h2 h3 h6 h7 h8 h9
    subst h2 h7 h8 h9 h6
    rw [h3]
    rfl
  have hga := (ffGradArgs_eq F dv (W 0)).2.2 (a 0) (ha 0)
  rw [hargs 0, ffCosts_s] at hga
  obtain ⟨d, hd⟩ := hg _ hga
  obtain ⟨G, hG, -, -, hent⟩ := c113_layout F dv P hS (W 0) _ hga hne d hd
  refine ⟨G, fun x => P.infid (a x), hG, fun x => by unfold ffInfid; rw [ha x]; rfl, fun f hf => ?_⟩
  have hb0 : bump u t c 0 = u := by
    have h1 : (fun row : List ℝ => row.modify c (· + 0)) = id := by
      funext row
      have h2 : (fun x : ℝ => x + 0) = id := by funext x; simp
      rw [h2, List.modify_id]
      rfl
    unfold bump
    rw [h1, List.modify_id]
  rw [hent t f c ht hf]
  simp only [hargs]
  simp only [hb0] at hd
  exact hP F.hCtrl u noise dt F.basis o (derivVals dv (W 0).s) d f t c hd hul hur hf ht hcc hder

end

/-! ## A package -/

/-- A package for the example: the infidelity of every noise term is the square of the first amplitude plus the sum over the
noise term's susceptibility at the first time. -/
noncomputable def exPkg : Pkg (Fin 2) Nat ℝ where
  infid a := a.pulse.noise.map fun q => ((a.pulse.controls.getD 0 (0, [], "")).2.1.getD 0 0) ^ 2 + q.2.1.getD 0 0
  grad a := .ok (a.pulse.noise.mapIdx fun j _ => (List.range a.pulse.dt.length).map fun t => (List.range a.ctrlIds.length).map fun c =>
    (if t = 0 ∧ c = 0 then 2 * (a.pulse.controls.getD 0 (0, [], "")).2.1.getD 0 0 else 0) +
    (if t = 0 then (match a.deriv with | none => 0 | some D => ((D.getD j []).getD c []).getD t 0) else 0))

theorem column_bump (u : Pulse) (t c : Nat) (x : ℝ) (k : Nat) (hu : t < u.length) (hr : ∀ row ∈ u, c < row.length) :
    (column (bump u t c x) k).getD 0 0 = (column u k).getD 0 0 + if t = 0 ∧ k = c then x else 0 := by
  cases u with
  | nil => simp at hu
  | cons row u =>
    have hc := hr row List.mem_cons_self
    cases t with
    | zero =>
      simp only [bump, List.modify_zero_cons, column, List.map_cons, List.getD_cons_zero, true_and]
      split
      · next h =>
        subst h
        rw [List.getD_eq_getElem _ _ (by simpa using hc), List.getD_eq_getElem _ _ hc]
        simp
      · next h =>
        by_cases hk : k < row.length
        · rw [List.getD_eq_getElem _ _ (by simpa using hk), List.getD_eq_getElem _ _ hk, List.getElem_modify_ne _ _ (Ne.symm h)]
          simp
        · simp [List.getD_eq_getElem?_getD, hk]
    | succ t => simp [bump, column]

theorem exPkg_correct : exPkg.Correct ∧ exPkg.Shape := by
  refine ⟨?_, ?_⟩
  · intro ctrl u noise dt basis om D d f t c hd hul hur hf ht hc hder
    have h0 : 0 < ctrl.length := by omega
    have hn : ∀ x, f < (noise x).length := fun x => by
      have := congrArg List.length (hder.opers x)
      simp only [List.length_map] at this
      omega
    simp only [exPkg, Except.ok.injEq] at hd
    subst hd
    have e : ∀ x, (exPkg.infid ⟨seqOf ctrl (bump u t c x) (noise x) dt basis, om, (noise x).map (·.2.2)⟩).getD f 0 =
        ((column u 0).getD 0 0 + if t = 0 ∧ 0 = c then x else 0) ^ 2 + (((noise x).getD f (0, [], "")).2.1).getD 0 0 := by
      intro x
      have := column_bump u t c x 0 (by omega) (fun row hr => by rw [hur row hr]; exact hc)
      simp only [exPkg, seqOf]
      have hctl : ((List.range ctrl.length).map fun c' => (ctrl.getD c' 0, column (bump u t c x) c', "Control" ++ toString c')).getD 0
          (0, [], "") = (ctrl.getD 0 0, column (bump u t c x) 0, "Control" ++ toString 0) := by
        rw [List.getD_eq_getElem?_getD, List.getElem?_map, List.getElem?_range h0]
        rfl
      rw [hctl, List.getD_eq_getElem?_getD, List.getElem?_map, List.getElem?_eq_getElem (hn x), List.getD_eq_getElem _ _ (hn x)]
      simp only [Option.map_some, Option.getD_some, this]
    simp only [e]
    have hcf := hder.coeffs f 0
    have hsq : HasDerivAt (fun x : ℝ => ((column u 0).getD 0 0 + if t = 0 ∧ 0 = c then x else 0) ^ 2)
        (if t = 0 ∧ c = 0 then 2 * (column u 0).getD 0 0 else 0) 0 := by
      by_cases h : t = 0 ∧ c = 0
      · obtain ⟨rfl, rfl⟩ := h
        have := ((hasDerivAt_id (0 : ℝ)).const_add ((column u 0).getD 0 0)).fun_pow 2
        simpa using this
      · have h' : ¬ (t = 0 ∧ 0 = c) := fun q => h ⟨q.1, q.2.symm⟩
        simp only [h, h', if_false, add_zero]
        exact hasDerivAt_const _ _
    refine (hsq.fun_add hcf).congr_deriv ?_
    symm
    simp only [seqOf, List.getD_eq_getElem?_getD, List.getElem?_mapIdx, List.getElem?_eq_getElem hf, Option.map_some, Option.getD_some,
      List.getElem?_map, List.getElem?_range ht, List.length_map, List.length_range, List.getElem?_range hc, List.getElem?_range h0]
    congr 1
    by_cases h : t = 0
    · subst h; simp
    · have : ¬ (0 = t) := fun q => h q.symm
      simp [h, this]
  · intro a d hd
    simp only [exPkg, Except.ok.injEq] at hd
    subst hd
    refine ⟨by simp, fun r hr => ?_⟩
    obtain ⟨i, hi, rfl⟩ := List.mem_mapIdx.mp hr
    simp

/-- One control, two time steps, and a noise term whose susceptibility is the amplitude itself. -/
example (L : Lapack (Fin 2)) (H₀ H₁ N : Matrix (Fin 2) (Fin 2) ℂ) :
    let F := exF L H₀ H₁ .base (.three fun _ _ u => [.ok N (column u 0) "a"])
    let dv : DerivSpec := .three fun _ _ _ => [[[1, 1]]]
    ∃ (G : List (List (List ℝ))) (cost : ℝ → List ℝ),
      (ffGrad F dv exPkg (fExec F [.solver (.set [[3], [4]])] (fConstruct F [1, 1] (some 5)))).1 = .ok G ∧
      (∀ x, ffInfid F exPkg (fExec F [.solver (.set [[3 + x], [4]])] (fConstruct F [1, 1] (some 5))) = .ok (cost x)) ∧
      HasDerivAt (fun x => (cost x).getD 0 0) (((G.getD 0 []).getD 0 []).getD 0 0) 0 := by
  intro F dv
  have hb : ∀ x : ℝ, bump [[3], [4]] 0 0 x = [[3 + x], [4]] := fun x => rfl
  have hs := fun y : Pulse => exF_set L H₀ H₁ .base (.three fun _ _ u => [.ok N (column u 0) "a"])
    (fConstruct F [1, 1] (some 5)) rfl y
  have hx : ∀ x : ℝ, _ := fun x => hs [[3 + x], [4]] (by simp) rfl (by simp) (by simp [fConstruct, construct_facts])
  have hcol : ∀ x : ℝ, column (bump [[3], [4]] 0 0 x) 0 = [3 + x, 4] := fun x => by simp [hb, column]
  obtain ⟨G, cost, h1, h2, h3⟩ := c113_derivative F rfl rfl dv exPkg exPkg_correct.1 exPkg_correct.2 [1, 1] 5
    (fun x => [.solver (.set [[3 + x], [4]])]) (by simp) [[3], [4]] 0 0 [1, 1] rfl (by simp [F, exF]) (by simp) (by simp [F, exF])
    (fun x => [(N, [3 + x, 4], "a")]) (by simp) _ (fun x => rfl) (fun x => by rw [hb]; exact (hx x).2.1)
    (fun x => (hx x).2.2.1) (fun x => by
      show [Term.ok N (column (bump [[3], [4]] 0 0 x) 0) "a"] = _
      rw [hcol]; rfl) ⟨fun x => rfl, fun x => rfl, fun j k => by
        show HasDerivAt (fun x : ℝ => (([(N, [3 + x, 4], "a")].getD j (0, [], "")).2.1).getD k 0)
          (if k = 0 then ((([[[1, 1]]] : Susc).getD j []).getD 0 []).getD 0 0 else 0) 0
        rcases j with _ | j
        · rcases k with _ | _ | k
          · simpa using (hasDerivAt_id (0 : ℝ)).const_add 3
          · simpa using hasDerivAt_const (0 : ℝ) (4 : ℝ)
          · simpa using hasDerivAt_const (0 : ℝ) (0 : ℝ)
        · simpa using hasDerivAt_const (0 : ℝ) (0 : ℝ)⟩
    (fun x => by
      have e := ffCosts_first F (fSet F [[3 + x], [4]] (fConstruct F [1, 1] (some 5))).2 (hx x).2.2.2.2.2.1 [[3 + x], [4]] (hx x).2.1
        [(N, [3 + x, 4], "a")] (by simp [noiseTerms, F, exF, column]) (fun _ => rfl) _ rfl _ rfl
      exact ⟨_, congrArg Prod.fst e⟩) (fun g _ => ⟨_, rfl⟩)
  have h0 : fExec F [.solver (.set [[3 + 0], [4]])] (fConstruct F [1, 1] (some 5)) =
      fExec F [.solver (.set [[3], [4]])] (fConstruct F [1, 1] (some (5 : ℝ))) := by rw [add_zero]
  rw [h0] at h1
  exact ⟨G, cost, h1, h2, h3 0 (by simp)⟩

end Verif.Solver
