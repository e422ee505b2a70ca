import Verif.Solver.MonteCarloCache

/-!
# C100: histories of a Monte Carlo solver
-/

namespace Verif.Solver
open Verif Verif.Operator Matrix

section
variable {n m γ : Type} [Fintype n] [DecidableEq n]

/-! ## Specification -/

/-- The exception of a computation. -/
def errOf {α : Type} : Except PyErr α → Option PyErr
  | .ok _ => none
  | .error e => some e

/-- The eight results for a pulse with noise samples fixed: as in `Solver/MonteCarlo.lean` and `Solver/NoiseTrace.lean`; the
noiseless ones are those of the solver without noise if the computation with noise succeeds, which is run along. -/
structure NReads (M : MC n m) (times : List ℝ) (y x u : Pulse) (c : NCfg n m γ) (s : NSt n m γ) : Prop where
  props : (nProps c s).1 = (propsNoise M times y x u).bind fun _ => specProps M.base times u
  fwd : (nFwd c s).1 = (fwdNoise M times y x u).bind fun _ => specFwd M.base times u
  rev : (nRev c s).1 = (revNoise M times y x u).bind fun _ => specRev M.base times u
  deriv : (nDeriv c s).1 = (derivsNoise M times y x u).bind fun _ => specDeriv M.base times u
  propsNoise : (nPropsNoise c s).1 = propsNoise M times y x u
  fwdNoise : (nFwdNoise c s).1 = fwdNoise M times y x u
  revNoise : (nRevNoise c s).1 = revNoise M times y x u
  derivNoise : (nDerivNoise c s).1 = derivsNoise M times y x u

/-- The solver accepts the pulse `y`: transferred parameters `x`, control amplitudes `u`. -/
def NAccepts (c : NCfg n m γ) (s : NSt n m γ) (y x u : Pulse) : Prop :=
  ∃ r : Raw, c.base.tf s.core.tau y = .ok x ∧ c.base.amp x = .ok r ∧ checkAmps s.core.times.length c.base.nCtrl r = none ∧
    r.rows = u

/-! ## Values of the computations -/

omit [Fintype n] [DecidableEq n] in
theorem addAll_eq (ps : List (Nat × Nat × Matrix n n ℂ)) (gs : List (List (Matrix n n ℂ))) :
    ps.foldlM addAt gs = orErr (addAll ps gs).2 (.ok (addAll ps gs).1) := by
  induction ps generalizing gs with
  | nil => rfl
  | cons p ps ih =>
    rw [List.foldlM_cons, addAll]
    cases h : addAt gs p with
    | error e => rfl
    | ok gs' => exact ih gs'

theorem traceRun_cells (cfg : Cfg n m) (wd : Bool) (times : List ℝ) (u : Pulse) (g : List (Matrix n n ℂ)) :
    traceRun cfg wd times u g = orErr (traceCells cfg wd times u g).2 (.ok (traceCells cfg wd times u g).1) := by
  unfold traceRun traceCells
  cases wd <;> rfl

theorem fillTraces_eq {α : Type} (d d' : α) (l : List (α × Option PyErr)) :
    inOrder d' (l.map fun p => orErr p.2 (.ok p.1)) = orErr (fillTraces d l).2 (.ok (fillTraces d l).1) := by
  unfold inOrder
  induction l with
  | nil => rfl
  | cons p l ih =>
    obtain ⟨a, e⟩ := p
    cases e with
    | some e => rfl
    | none =>
      simp only [List.map_cons, orErr, fill, fillTraces] at ih ⊢
      cases h : (fill d' (l.map fun p => orErr p.2 (.ok p.1))).2 with
      | some e =>
        simp only [orErr] at h ih
        rw [h] at ih
        cases h' : (fillTraces d l).2 with
        | none => rw [h'] at ih; simp at ih
        | some e' => rw [h'] at ih; simp only [Except.error.injEq] at ih; simp only [orErr, h, ih]
      | none =>
        simp only [orErr] at h ih
        rw [h] at ih
        cases h' : (fillTraces d l).2 with
        | some e' => rw [h'] at ih; simp at ih
        | none => rw [h'] at ih; simp only [Except.ok.injEq] at ih; simp only [orErr, h, ih]

theorem errOf_orErr {α : Type} (e : Option PyErr) (a : α) : errOf (orErr e (.ok a)) = e := by cases e <;> rfl

omit [DecidableEq n] [Fintype n] in
theorem nGens_spec {c : NCfg n m γ} {A : Arr3} {g1 : γ} {y x u : Pulse} {s : NSt n m γ} (hy : s.core.optPars = some y)
    (hx : s.core.xPars = some x) (hd : c.draw s.rng = (.ok A, g1)) :
    (nGens c u s).1 = errOf (dynGenNoise (c.mc A) y x u) ∧
    ∀ ng, dynGenNoise (c.mc A) y x u = .ok ng →
      nGens c u s = (none, { s with core := { s.core with dynGen := some (c.base.gens u) }, gens := some ng, rng := g1 }) := by
  unfold nGens dynGenNoise
  simp only [hd, hy, hx, Option.getD_some]
  cases hB : noiseAmplitudes (c.mc A) y x u with
  | error e => exact ⟨rfl, fun ng h => by simp [bind, Except.bind] at h⟩
  | ok B =>
    simp only [bind, Except.bind, noiseGens, addAll_eq]
    change _ = errOf (orErr (addAll (noiseUpdates B c.hNoise) (List.replicate c.nTraces (c.base.gens u))).2 _) ∧ _
    rw [errOf_orErr]
    refine ⟨rfl, fun ng h => ?_⟩
    change orErr (addAll (noiseUpdates B c.hNoise) (List.replicate c.nTraces (c.base.gens u))).2
      (.ok (addAll (noiseUpdates B c.hNoise) (List.replicate c.nTraces (c.base.gens u))).1) = .ok ng at h
    cases he : (addAll (noiseUpdates B c.hNoise) (List.replicate c.nTraces (c.base.gens u))).2 with
    | some e => rw [he] at h; simp [orErr] at h
    | none =>
      rw [he] at h
      simp only [orErr, Except.ok.injEq] at h
      rw [h]

/-- The noiseless part of the computation. -/
theorem computePropagation_err {cfg : Cfg n m} {u : Pulse} {k : St n m} (h : Inv cfg u k) (wd : Bool) :
    (computePropagation cfg wd k).1 = errOf (traceRun cfg wd k.times u (cfg.gens u)) := by
  rw [traceRun_cells, errOf_orErr]
  cases wd with
  | true => rw [computePropagation_true h]; rfl
  | false => rw [computePropagation_false h]; rfl

theorem computePropagation_dyn {cfg : Cfg n m} {u : Pulse} {k : St n m} (h : Inv cfg u k) (wd : Bool) :
    computePropagation cfg wd { k with dynGen := some (cfg.gens u) } = computePropagation cfg wd k := by
  have h' : Inv cfg u { k with dynGen := some (cfg.gens u) } :=
    ⟨h.amps, fun g hg => by simpa using hg.symm, h.prop, h.fwd, h.rev, h.deriv⟩
  cases wd with
  | true => rw [computePropagation_true h', computePropagation_true h]
  | false => rw [computePropagation_false h', computePropagation_false h]

theorem computePropagation_times (cfg : Cfg n m) (wd : Bool) (k : St n m) :
    (computePropagation cfg wd k).2.times = k.times := by
  unfold computePropagation
  cases h : k.amps <;> cases wd <;> simp

theorem nLoops_spec {c : NCfg n m γ} {A : Arr3} {y x u : Pulse} {s : NSt n m γ} (hI : Inv c.base u s.core)
    {ng : List (List (Matrix n n ℂ))} (hg : s.gens = some ng) (hng : dynGenNoise (c.mc A) y x u = .ok ng) (wd : Bool) :
    (nLoops c wd u s).1 = errOf (noiseRun (c.mc A) wd s.core.times y x u) ∧
    ∀ out, noiseRun (c.mc A) wd s.core.times y x u = .ok out →
      nLoops c wd u s = (none, { s with
        core := (computePropagation c.base wd s.core).2, prop := some (out.map Prod.fst),
        deriv := if wd then some (out.map Prod.snd) else s.deriv }) := by
  have he := computePropagation_err hI wd
  have ht := computePropagation_times c.base wd s.core
  unfold nLoops noiseRun
  rw [hng]
  simp only [bind, Except.bind]
  cases hr : traceRun (c.mc A).base wd s.core.times u ((c.mc A).base.gens u) with
  | error e =>
    rw [show traceRun c.base wd s.core.times u (c.base.gens u) = _ from hr] at he
    generalize computePropagation c.base wd s.core = r at *
    obtain ⟨r1, k⟩ := r
    simp only [errOf] at he
    subst he
    exact ⟨rfl, fun out h => by simp at h⟩
  | ok b =>
    rw [show traceRun c.base wd s.core.times u (c.base.gens u) = _ from hr] at he
    generalize computePropagation c.base wd s.core = r at *
    obtain ⟨r1, k⟩ := r
    simp only [errOf] at he ht
    subst he
    simp only [hg, Option.getD_some, ht]
    rw [show (c.mc A).procs = c.procs from rfl]
    cases hp : c.procs.mode with
    | invalid => exact ⟨rfl, fun out h => by simp at h⟩
    | serial =>
      simp only
      have h1 : ((List.range (c.mc A).nTraces).map fun i => traceRun (c.mc A).base wd s.core.times u (ng.getD i [])) =
          ((List.range c.nTraces).map fun i => traceCells c.base wd s.core.times u (ng.getD i [])).map
            fun p => orErr p.2 (.ok p.1) := by
        rw [List.map_map]
        exact List.map_congr_left fun i _ => traceRun_cells _ _ _ _ _
      rw [h1, fillTraces_eq (s.core.times.map fun _ => none, List.replicate c.base.nCtrl (s.core.times.map fun _ => none)),
        errOf_orErr]
      refine ⟨rfl, fun out h => ?_⟩
      generalize fillTraces (s.core.times.map fun _ => none, List.replicate c.base.nCtrl (s.core.times.map fun _ => none))
        ((List.range c.nTraces).map fun i => traceCells c.base wd s.core.times u (ng.getD i [])) = t at h ⊢
      obtain ⟨t1, t2⟩ := t
      cases t2 with
      | some e => simp [orErr] at h
      | none =>
        simp only [orErr, Except.ok.injEq] at h
        subst h
        cases wd <;> rfl
    | parallel =>
      cases wd with
      | true => exact ⟨rfl, fun out h => by simp at h⟩
      | false =>
        simp only [Bool.false_eq_true, if_false]
        have h1 : ∀ l : List (Except PyErr (List (Option (Matrix n n ℂ)))),
            inOrder (([], []) : TraceOut n) (l.map fun r => r.map fun p => (p, [])) =
              (inOrder [] l).map fun ps => ps.map fun p => (p, []) := by
          intro l
          unfold inOrder
          induction l with
          | nil => rfl
          | cons r l ih =>
            cases r with
            | error e => rfl
            | ok p =>
              simp only [List.map_cons, Except.map, fill] at ih ⊢
              cases h : (fill ([] : List (Option (Matrix n n ℂ))) l).2 with
              | some e =>
                rw [h] at ih
                simp only [orErr] at ih ⊢
                cases h' : (fill (([], []) : TraceOut n) (l.map fun r => r.map fun p => (p, []))).2 with
                | none => simp only [Except.map] at h'; rw [h'] at ih; simp at ih
                | some e' => simp only [Except.map] at h'; rw [h'] at ih; simpa [h'] using ih
              | none =>
                rw [h] at ih
                simp only [orErr] at ih ⊢
                cases h' : (fill (([], []) : TraceOut n) (l.map fun r => r.map fun p => (p, []))).2 with
                | some e => simp only [Except.map] at h'; rw [h'] at ih; simp at ih
                | none => simp only [Except.map] at h'; rw [h'] at ih; simpa [h'] using ih
        have h2 : ((List.range (c.mc A).nTraces).map fun i =>
            (matrixExponentials (c.mc A).base (ng.getD i []) s.core.times).map fun p =>
              ((p, []) : TraceOut n)) =
            ((List.range c.nTraces).map fun i => matrixExponentials c.base (ng.getD i []) s.core.times).map
              fun r => r.map fun p => (p, []) := by
          rw [List.map_map]; rfl
        rw [h2, h1]
        cases hi : inOrder [] ((List.range c.nTraces).map fun i => matrixExponentials c.base (ng.getD i []) s.core.times) with
        | error e => exact ⟨rfl, fun out h => by simp [Except.map] at h⟩
        | ok p =>
          refine ⟨rfl, fun out h => ?_⟩
          simp only [Except.map, Except.ok.injEq] at h
          subst h
          simp [Function.comp_def]

/-! ## The invariant -/

/-- State invariant: everything cached belongs to the pulse and to the samples `A`, which are what the generator delivers in
the state `g0`. -/
structure NInv (c : NCfg n m γ) (A : Arr3) (g0 g1 : γ) (y x u : Pulse) (s : NSt n m γ) : Prop where
  core : Inv c.base u s.core
  opt : s.core.optPars = some y
  xp : s.core.xPars = some x
  src : (s.gens = none ∧ s.rng = g0 ∧ s.core.prop = none ∧ s.core.fwd = none ∧ s.core.rev = none ∧ s.core.deriv = none) ∨
    ∃ ng, s.gens = some ng ∧ dynGenNoise (c.mc A) y x u = .ok ng ∧ s.rng = g1
  prop : ∀ p, s.prop = some p → propsNoise (c.mc A) s.core.times y x u = .ok p
  fwd : ∀ p, s.fwd = some p → fwdNoise (c.mc A) s.core.times y x u = .ok p
  rev : ∀ p, s.rev = some p → revNoise (c.mc A) s.core.times y x u = .ok p
  deriv : ∀ p, s.deriv = some p → derivsNoise (c.mc A) s.core.times y x u = .ok p
  propIff : s.core.prop.isSome = s.prop.isSome
  fwdIff : s.core.fwd.isSome = s.fwd.isSome
  revIff : s.core.rev.isSome = s.rev.isSome
  derivIff : s.core.deriv.isSome = s.deriv.isSome

theorem nPropagation_spec {c : NCfg n m γ} {A : Arr3} {g0 g1 : γ} (hd : c.draw g0 = (.ok A, g1)) {y x u : Pulse}
    {s : NSt n m γ} (h : NInv c A g0 g1 y x u s) (wd : Bool) :
    (nPropagation c wd s).1 = errOf (noiseRun (c.mc A) wd s.core.times y x u) ∧
    ∀ out, noiseRun (c.mc A) wd s.core.times y x u = .ok out → ∃ ng, dynGenNoise (c.mc A) y x u = .ok ng ∧
      nPropagation c wd s = (none, { s with
        core := (computePropagation c.base wd s.core).2, gens := some ng, prop := some (out.map Prod.fst),
        deriv := if wd then some (out.map Prod.snd) else s.deriv, rng := g1 }) := by
  unfold nPropagation
  simp only [h.core.amps]
  rcases h.src with ⟨hg, hr, -⟩ | ⟨ng, hg, hng, hr⟩
  · simp only [hg]
    obtain ⟨h1, h2⟩ := nGens_spec (c := c) (u := u) h.opt h.xp (by rw [hr]; exact hd)
    cases hng : dynGenNoise (c.mc A) y x u with
    | error e =>
      rw [hng] at h1
      have hrun : noiseRun (c.mc A) wd s.core.times y x u = .error e := by
        unfold noiseRun; rw [hng]; rfl
      rw [hrun]
      generalize nGens c u s = r at *
      obtain ⟨r1, s'⟩ := r
      simp only [errOf] at h1
      subst h1
      exact ⟨rfl, fun out h => by simp at h⟩
    | ok ng =>
      rw [h2 ng hng]
      simp only
      have hI : Inv c.base u { s.core with dynGen := some (c.base.gens u) } :=
        ⟨h.core.amps, fun g hg => by simpa using hg.symm, h.core.prop, h.core.fwd, h.core.rev, h.core.deriv⟩
      obtain ⟨h3, h4⟩ := nLoops_spec (c := c) (A := A) (y := y) (x := x) (s := { s with
        core := { s.core with dynGen := some (c.base.gens u) }, gens := some ng, rng := g1 }) hI rfl hng wd
      refine ⟨h3, fun out ho => ⟨ng, rfl, ?_⟩⟩
      rw [h4 out ho]
      simp only [computePropagation_dyn h.core]
  · simp only [hg]
    obtain ⟨h3, h4⟩ := nLoops_spec (c := c) (A := A) (y := y) (x := x) h.core hg hng wd
    refine ⟨h3, fun out ho => ⟨ng, hng, ?_⟩⟩
    rw [h4 out ho]
    obtain ⟨_, _, _, _, _, _, _⟩ := s
    simp only at hg hr
    subst hg hr
    rfl

/-- A successful run includes a successful run without noise. -/
theorem noiseRun_base {M : MC n m} {wd : Bool} {times : List ℝ} {y x u : Pulse} {out : List (TraceOut n)}
    (h : noiseRun M wd times y x u = .ok out) : errOf (traceRun M.base wd times u (M.base.gens u)) = none := by
  unfold noiseRun at h
  cases hng : dynGenNoise M y x u with
  | error e => rw [hng] at h; simp [bind, Except.bind] at h
  | ok ng =>
    rw [hng] at h
    cases hr : traceRun M.base wd times u (M.base.gens u) with
    | error e => simp only [bind, Except.bind, hr] at h; simp at h
    | ok b => rfl

/-- A successful run of a trace with derivatives and the run without. -/
theorem traceRun_both (cfg : Cfg n m) (hm : cfg.method = .spectral ∨ cfg.method = .frechet)
    (hd : ∀ (times : List ℝ) (u : Pulse) (t : Nat) (Ds : List (Matrix n n ℂ)), (cfg.dirs times u)[t]? = some Ds → Ds ≠ [])
    (times : List ℝ) (u : Pulse) (g : List (Matrix n n ℂ)) (o : TraceOut n) (h : traceRun cfg true times u g = .ok o) :
    traceRun cfg false times u g = .ok (o.1, []) := by
  rw [← traceRun_withGens] at h ⊢
  have hD : traceRun (withGens cfg g) true times u g = orErr (cellsD (withGens cfg g) times u).2
    (.ok ((cellsD (withGens cfg g) times u).1.map Prod.fst,
      byControl cfg.nCtrl ((cellsD (withGens cfg g) times u).1.map Prod.snd))) := rfl
  have hP : traceRun (withGens cfg g) false times u g = orErr (cellsP (withGens cfg g) times u).2
    (.ok ((cellsP (withGens cfg g) times u).1, [])) := rfl
  rw [hD] at h
  rw [hP]
  cases he : (cellsD (withGens cfg g) times u).2 with
  | some e => rw [he] at h; simp [orErr] at h
  | none =>
    rw [he] at h
    simp only [orErr, Except.ok.injEq] at h
    rw [cellsD_cellsP (withGens cfg g) hm hd times u he, ← h]
    rfl

theorem inOrder_ok {α : Type} {d : α} {l : List (Except PyErr α)} {v : List α} (h : inOrder d l = .ok v) :
    l = v.map .ok := by
  replace h : orErr (fill d l).2 (.ok (fill d l).1) = .ok v := h
  cases he : (fill d l).2 with
  | some e => rw [he] at h; simp [orErr] at h
  | none =>
    rw [he] at h
    simp only [orErr, Except.ok.injEq] at h
    rw [fill_none he, h]

/-- A successful run with derivatives and the run without. -/
theorem noiseRun_both {M : MC n m} (hm : M.base.method = .spectral ∨ M.base.method = .frechet)
    (hd : ∀ (times : List ℝ) (u : Pulse) (t : Nat) (Ds : List (Matrix n n ℂ)), (M.base.dirs times u)[t]? = some Ds → Ds ≠ [])
    {times : List ℝ} {y x u : Pulse} {out : List (TraceOut n)} (h : noiseRun M true times y x u = .ok out) :
    noiseRun M false times y x u = .ok (out.map fun o => (o.1, [])) := by
  unfold noiseRun at h ⊢
  cases hng : dynGenNoise M y x u with
  | error e => rw [hng] at h; simp [bind, Except.bind] at h
  | ok ng =>
    rw [hng] at h
    simp only [bind, Except.bind] at h ⊢
    cases hr : traceRun M.base true times u (M.base.gens u) with
    | error e => rw [hr] at h; simp at h
    | ok b =>
      rw [hr] at h
      rw [traceRun_both M.base hm hd times u _ b hr]
      simp only at h ⊢
      cases hp : M.procs.mode with
      | invalid => rw [hp] at h; simp at h
      | parallel => rw [hp] at h; simp at h
      | serial =>
        rw [hp] at h
        simp only at h ⊢
        have h1 := inOrder_ok h
        have hlen : out.length = M.nTraces := by simpa using (congrArg List.length h1).symm
        rw [inOrder_map_ok _ _ _ (fun k => ((out.getD k ([], [])).1, []))]
        · congr 1
          refine List.ext_getElem (by simp [hlen]) fun k h2 h3 => ?_
          have hk : k < out.length := by simpa using h3
          simp [List.getElem?_eq_getElem hk]
        · intro k hk
          have hk' := List.mem_range.mp hk
          have h2 := congrArg (fun l => l[k]?) h1
          have hk2 : k < out.length := by omega
          simp only [List.getElem?_map, List.getElem?_range hk', Option.map_some, List.getElem?_eq_getElem hk2,
            Option.some.injEq] at h2
          rw [List.getD_eq_getElem _ _ hk2]
          exact traceRun_both M.base hm hd times u _ _ h2

/-- The noiseless caches after a computation with derivatives. -/
theorem inv_true {cfg : Cfg n m} (hst : Stable cfg) (ha : cfg.approx = .none) {u : Pulse} {k : St n m} (h : Inv cfg u k)
    (he : (cellsD cfg k.times u).2 = none) : Inv cfg u (computePropagation cfg true k).2 := by
  rw [computePropagation_true h]
  refine ⟨h.amps, ?_, ?_, h.fwd, h.rev, ?_⟩
  · intro g hg; simpa using hg.symm
  · intro p hp
    simp only [Option.some.injEq] at hp
    unfold cells
    cases hc : cfg.calcDeriv with
    | true => simp [← hp, he]
    | false =>
      rcases hst with h | h | h
      · simp [hc] at h
      · rw [if_neg (by simp), cellsD_cellsP cfg h.2.1 h.2.2 _ _ he, ← hp]
      · exact absurd ha h.1
  · intro d hd
    simp only [Option.some.injEq] at hd
    simp [specDeriv, ha, he, orErr, ← hd]

/-- The computation of the propagators, in the default mode or with exact derivatives. -/
theorem nPropagation_inv {c : NCfg n m γ} (hst : Stable c.base) {A : Arr3} {g0 g1 : γ} (hd : c.draw g0 = (.ok A, g1))
    {y x u : Pulse} {s : NSt n m γ} (h : NInv c A g0 g1 y x u s) (wd : Bool)
    (hwd : wd = c.base.calcDeriv ∨ (wd = true ∧ c.base.approx = .none)) :
    (nPropagation c wd s).1 = errOf (noiseRun (c.mc A) wd s.core.times y x u) ∧
    ((nPropagation c wd s).1 = none → NInv c A g0 g1 y x u (nPropagation c wd s).2 ∧
      (nPropagation c wd s).2.core.times = s.core.times ∧ (nPropagation c wd s).2.core.prop.isSome = true ∧
      (wd = true → (nPropagation c wd s).2.core.deriv.isSome = true)) := by
  obtain ⟨h1, h2⟩ := nPropagation_spec hd h wd
  refine ⟨h1, fun he => ?_⟩
  rw [h1] at he
  cases hr : noiseRun (c.mc A) wd s.core.times y x u with
  | error e => rw [hr] at he; simp [errOf] at he
  | ok out =>
    obtain ⟨ng, hng, h3⟩ := h2 out hr
    have hb : errOf (traceRun c.base wd s.core.times u (c.base.gens u)) = none := noiseRun_base hr
    have hce := computePropagation_err h.core wd
    rw [hb] at hce
    have hI : Inv c.base u (computePropagation c.base wd s.core).2 := by
      rcases hwd with rfl | ⟨rfl, ha⟩
      · obtain ⟨k1, k2, k3, k4⟩ := computePropagation_spec hst h.core
        exact k3 (by rw [← k1]; exact hce)
      · refine inv_true hst ha h.core ?_
        rw [computePropagation_true h.core] at hce
        exact hce
    have hprops : propsNoise (c.mc A) s.core.times y x u = .ok (out.map Prod.fst) := by
      unfold propsNoise
      rw [show (c.mc A).base.calcDeriv = c.base.calcDeriv from rfl]
      rcases hwd with rfl | ⟨rfl, ha⟩
      · rw [hr]; rfl
      · cases hc : c.base.calcDeriv with
        | true => rw [hr]; rfl
        | false =>
          rcases hst with h | h | h
          · simp [hc] at h
          · rw [noiseRun_both (M := c.mc A) h.2.1 h.2.2 hr]
            simp [bind, Except.bind, pure, Except.pure, Function.comp_def]
          · exact absurd ha h.1
    have hderivs : wd = true → derivsNoise (c.mc A) s.core.times y x u = .ok (out.map Prod.snd) := by
      intro hw
      have ha : c.base.approx = .none := by
        rcases hwd with hwd | ⟨_, ha⟩
        · rcases hst with h | h | h
          · exact h.1
          · exact h.1
          · rw [hw, h.2] at hwd; simp at hwd
        · exact ha
      unfold derivsNoise
      rw [show (c.mc A).base.approx = c.base.approx from rfl, ha]
      subst hw
      simp only [hr]
      rfl
    rw [h3]
    have hk : ∀ k : St n m, k = (computePropagation c.base wd s.core).2 → k.times = s.core.times ∧ k.optPars = s.core.optPars ∧
        k.xPars = s.core.xPars ∧ k.fwd = s.core.fwd ∧ k.rev = s.core.rev ∧ k.prop.isSome = true ∧
        k.deriv.isSome = (wd || s.core.deriv.isSome) := by
      rintro k rfl
      cases wd with
      | true => rw [computePropagation_true h.core]; simp
      | false => rw [computePropagation_false h.core]; simp
    obtain ⟨k1, k2, k3, k4, k5, k6, k7⟩ := hk _ rfl
    refine ⟨⟨hI, k2.trans h.opt, k3.trans h.xp, Or.inr ⟨ng, rfl, hng, rfl⟩, ?_, ?_, ?_, ?_, ?_, ?_, ?_, ?_⟩, k1, k6, ?_⟩
    · intro p hp
      simp only [Option.some.injEq] at hp
      simp only [k1]
      rw [← hp]
      exact hprops
    · intro p hp
      simp only [k1]
      exact h.fwd p hp
    · intro p hp
      simp only [k1]
      exact h.rev p hp
    · intro p hp
      simp only [k1]
      cases wd with
      | true =>
        simp only [if_true, Option.some.injEq] at hp
        rw [← hp]
        exact hderivs rfl
      | false => exact h.deriv p hp
    · rw [k6]; rfl
    · rw [k4]; exact h.fwdIff
    · rw [k5]; exact h.revIff
    · rw [k7]
      cases wd with
      | true => rfl
      | false => simpa using h.derivIff
    · intro hw
      rw [k7, hw]
      rfl

/-! ## The computations of the four results -/

/-- A computation raises what the specification says; otherwise the invariant holds afterwards and the caches `get` are
filled. -/
def Computes {α β : Type} (c : NCfg n m γ) (A : Arr3) (g0 g1 : γ) (y x u : Pulse) (s : NSt n m γ)
    (r : Option PyErr × NSt n m γ) (spec : Except PyErr α) (get : NSt n m γ → Option β) : Prop :=
  r.1 = errOf spec ∧ (r.1 = none → NInv c A g0 g1 y x u r.2 ∧ r.2.core.times = s.core.times ∧ (get r.2).isSome = true)

theorem errOf_props (M : MC n m) (times : List ℝ) (y x u : Pulse) :
    errOf (propsNoise M times y x u) = errOf (noiseRun M M.base.calcDeriv times y x u) := by
  unfold propsNoise
  cases noiseRun M M.base.calcDeriv times y x u <;> rfl

theorem nPropagation_computes {c : NCfg n m γ} (hst : Stable c.base) {A : Arr3} {g0 g1 : γ} (hd : c.draw g0 = (.ok A, g1))
    {y x u : Pulse} {s : NSt n m γ} (h : NInv c A g0 g1 y x u s) :
    Computes c A g0 g1 y x u s (nPropagation c c.base.calcDeriv s) (propsNoise (c.mc A) s.core.times y x u)
      fun s => s.core.prop := by
  obtain ⟨h1, h2⟩ := nPropagation_inv hst hd h c.base.calcDeriv (Or.inl rfl)
  refine ⟨by rw [h1, errOf_props]; rfl, fun he => ?_⟩
  obtain ⟨k1, k2, k3, -⟩ := h2 he
  exact ⟨k1, k2, k3⟩

theorem nEnsure_computes {c : NCfg n m γ} (hst : Stable c.base) {A : Arr3} {g0 g1 : γ} (hd : c.draw g0 = (.ok A, g1))
    {y x u : Pulse} {s : NSt n m γ} (h : NInv c A g0 g1 y x u s) :
    Computes c A g0 g1 y x u s (nEnsure c c.base.calcDeriv s) (propsNoise (c.mc A) s.core.times y x u)
      fun s => s.core.prop := by
  unfold nEnsure
  cases hp : s.core.prop with
  | none => exact nPropagation_computes hst hd h
  | some p =>
    have h1 := h.propIff
    rw [hp] at h1
    cases hq : s.prop with
    | none => rw [hq] at h1; simp at h1
    | some q => exact ⟨by rw [h.prop q hq]; rfl, fun _ => ⟨h, rfl, by simp [hp]⟩⟩

/-- The noise propagators are present once the others are. -/
theorem nEnsureNoise_some {c : NCfg n m γ} {A : Arr3} {g0 g1 : γ} {y x u : Pulse} {s : NSt n m γ}
    (h : NInv c A g0 g1 y x u s) (hp : s.core.prop.isSome = true) (wd : Bool) (k : St n m) :
    ∃ p, s.prop = some p ∧ nEnsureNoise c wd { s with core := k } = (none, { s with core := k }) := by
  have h1 := h.propIff
  rw [hp] at h1
  unfold nEnsureNoise
  cases hq : s.prop with
  | none => rw [hq] at h1; simp at h1
  | some q => exact ⟨q, rfl, by simp only [hq]⟩

/-- Changing the caches of forward, reversed propagation or derivatives. -/
theorem NInv.src_some {c : NCfg n m γ} {A : Arr3} {g0 g1 : γ} {y x u : Pulse} {s : NSt n m γ}
    (h : NInv c A g0 g1 y x u s) (hp : s.core.prop.isSome = true) :
    ∃ ng, s.gens = some ng ∧ dynGenNoise (c.mc A) y x u = .ok ng ∧ s.rng = g1 := by
  rcases h.src with h' | h'
  · rw [h'.2.2.1] at hp; simp at hp
  · exact h'

theorem nComputeFwd_computes {c : NCfg n m γ} (hst : Stable c.base) {A : Arr3} {g0 g1 : γ} (hd : c.draw g0 = (.ok A, g1))
    {y x u : Pulse} {s : NSt n m γ} (h : NInv c A g0 g1 y x u s) :
    Computes c A g0 g1 y x u s (nComputeFwd c s) (fwdNoise (c.mc A) s.core.times y x u) fun s => s.core.fwd := by
  obtain ⟨h1, h2⟩ := nEnsure_computes hst hd h
  unfold nComputeFwd fwdNoise
  generalize nEnsure c c.base.calcDeriv s = r at *
  obtain ⟨e, s'⟩ := r
  cases hps : propsNoise (c.mc A) s.core.times y x u with
  | error e' =>
    rw [hps] at h1
    simp only [errOf] at h1
    subst h1
    exact ⟨rfl, fun he => by simp at he⟩
  | ok ps =>
    rw [hps] at h1
    simp only [errOf] at h1
    subst h1
    obtain ⟨hI, ht, hp⟩ := h2 rfl
    obtain ⟨p, hp1⟩ := Option.isSome_iff_exists.mp hp
    simp only at ht hp1 hI hp ⊢
    have hcells := hI.core.prop p hp1
    rw [ht] at hcells
    have hspec : specFwd c.base s.core.times u = orErr (fwdLoop p c.base.init).2 (.ok (c.base.init :: (fwdLoop p c.base.init).1)) := by
      simp only [specFwd, hcells, orErr]
    have hcf : computeFwd c.base s'.core = ((fwdLoop p c.base.init).2,
        { s'.core with fwd := some (c.base.init :: (fwdLoop p c.base.init).1) }) := by
      simp only [computeFwd, ensureProp, hp1, Option.getD_some]
    rw [hcf]
    simp only [bind, Except.bind]
    rw [show specFwd (c.mc A).base s.core.times u = _ from hspec]
    cases hl : (fwdLoop p c.base.init).2 with
    | some e => exact ⟨rfl, fun he => by simp at he⟩
    | none =>
      rw [hl] at hspec
      simp only [orErr] at hspec ⊢
      obtain ⟨q, hq, hen⟩ := nEnsureNoise_some (wd := c.base.calcDeriv) hI hp
        { s'.core with fwd := some (c.base.init :: (fwdLoop p c.base.init).1) }
      rw [hen]
      have hqp := hI.prop q hq
      rw [ht, hps] at hqp
      simp only [Except.ok.injEq] at hqp
      subst hqp
      simp only [hq, Option.getD_some]
      have hin : inOrder [] (ps.map (traceFwd (c.mc A).base)) = orErr (fillTraces [c.base.init] (ps.map fun ps =>
          (c.base.init :: (fwdLoop ps c.base.init).1, (fwdLoop ps c.base.init).2))).2 (.ok
          (fillTraces [c.base.init] (ps.map fun ps =>
          (c.base.init :: (fwdLoop ps c.base.init).1, (fwdLoop ps c.base.init).2))).1) := by
        rw [← fillTraces_eq _ [], List.map_map]
        rfl
      refine ⟨by rw [hin, errOf_orErr], fun he => ?_⟩
      simp only at he
      rw [he] at hin
      refine ⟨⟨?_, hI.opt, hI.xp, Or.inr (hI.src_some hp), fun a ha => hI.prop a (hq.trans ha), ?_,
        hI.rev, hI.deriv, hq ▸ hI.propIff, rfl, hI.revIff, hI.derivIff⟩,
        ht, rfl⟩
      · refine ⟨hI.core.amps, hI.core.dyn, hI.core.prop, fun f hf => ?_, hI.core.rev, hI.core.deriv⟩
        simp only [Option.some.injEq] at hf
        simp only [ht]
        rw [hspec, hf]
      · intro f hf
        simp only [Option.some.injEq] at hf
        simp only [ht]
        unfold fwdNoise
        rw [hps]
        simp only [bind, Except.bind]
        rw [show specFwd (c.mc A).base s.core.times u = _ from hspec]
        simp only [hin, orErr, hf]

theorem nComputeRev_computes {c : NCfg n m γ} (hst : Stable c.base) {A : Arr3} {g0 g1 : γ} (hd : c.draw g0 = (.ok A, g1))
    {y x u : Pulse} {s : NSt n m γ} (h : NInv c A g0 g1 y x u s) :
    Computes c A g0 g1 y x u s (nComputeRev c s) (revNoise (c.mc A) s.core.times y x u) fun s => s.core.rev := by
  obtain ⟨h1, h2⟩ := nEnsure_computes hst hd h
  unfold nComputeRev revNoise
  generalize nEnsure c c.base.calcDeriv s = r at *
  obtain ⟨e, s'⟩ := r
  cases hps : propsNoise (c.mc A) s.core.times y x u with
  | error e' =>
    rw [hps] at h1
    simp only [errOf] at h1
    subst h1
    exact ⟨rfl, fun he => by simp at he⟩
  | ok ps =>
    rw [hps] at h1
    simp only [errOf] at h1
    subst h1
    obtain ⟨hI, ht, hp⟩ := h2 rfl
    obtain ⟨p, hp1⟩ := Option.isSome_iff_exists.mp hp
    simp only at ht hp1 hI hp ⊢
    have hcells := hI.core.prop p hp1
    rw [ht] at hcells
    have hspec : specRev c.base s.core.times u = revOf p := by
      simp only [specRev, hcells, orErr]
    have hcf : (computeRev c.base s'.core).1 = errOf (revOf p) ∧ ∀ r, revOf p = .ok r →
        computeRev c.base s'.core = (none, { s'.core with rev := some r }) := by
      simp only [computeRev, ensureProp, hp1, Option.getD_some]
      cases p with
      | nil => exact ⟨rfl, fun r hr => by simp [revOf] at hr⟩
      | cons o p' =>
        cases o with
        | none => exact ⟨rfl, fun r hr => by simp [revOf] at hr⟩
        | some P =>
          simp only [revOf]
          cases hl : (revLoop (some P :: p').reverse 1).2 with
          | some e => exact ⟨rfl, fun r hr => by simp [orErr] at hr⟩
          | none => exact ⟨rfl, fun r hr => by simp only [orErr, Except.ok.injEq] at hr; rw [hr]⟩
    simp only [bind, Except.bind]
    rw [show specRev (c.mc A).base s.core.times u = _ from hspec]
    cases hl : revOf p with
    | error e =>
      rw [hl] at hcf
      generalize computeRev c.base s'.core = r at *
      obtain ⟨r1, k⟩ := r
      have := hcf.1
      simp only [errOf] at this
      subst this
      exact ⟨rfl, fun he => by simp at he⟩
    | ok rv =>
      rw [hcf.2 rv hl]
      rw [hl] at hspec
      simp only
      obtain ⟨q, hq, hen⟩ := nEnsureNoise_some (wd := c.base.calcDeriv) hI hp { s'.core with rev := some rv }
      rw [hen]
      have hqp := hI.prop q hq
      rw [ht, hps] at hqp
      simp only [Except.ok.injEq] at hqp
      subst hqp
      simp only [hq, Option.getD_some]
      have hin : inOrder [] (ps.map traceRev) = orErr (fillTraces [1] (ps.map fun ps =>
          ((1 : Matrix n n ℂ) :: (revLoop ps.reverse 1).1, (revLoop ps.reverse 1).2))).2 (.ok
          (fillTraces [1] (ps.map fun ps => ((1 : Matrix n n ℂ) :: (revLoop ps.reverse 1).1, (revLoop ps.reverse 1).2))).1) := by
        rw [← fillTraces_eq _ [], List.map_map]
        rfl
      refine ⟨by rw [hin, errOf_orErr], fun he => ?_⟩
      simp only at he
      rw [he] at hin
      refine ⟨⟨?_, hI.opt, hI.xp, Or.inr (hI.src_some hp), fun a ha => hI.prop a (hq.trans ha), hI.fwd, ?_,
        hI.deriv, hq ▸ hI.propIff, hI.fwdIff, rfl, hI.derivIff⟩,
        ht, rfl⟩
      · refine ⟨hI.core.amps, hI.core.dyn, hI.core.prop, hI.core.fwd, fun f hf => ?_, hI.core.deriv⟩
        simp only [Option.some.injEq] at hf
        simp only [ht]
        rw [hspec, hf]
      · intro f hf
        simp only [Option.some.injEq] at hf
        simp only [ht]
        unfold revNoise
        rw [hps]
        simp only [bind, Except.bind]
        rw [show specRev (c.mc A).base s.core.times u = _ from hspec]
        simp only [hin, orErr, hf]

theorem nComputeDeriv_computes {c : NCfg n m γ} (hst : Stable c.base) {A : Arr3} {g0 g1 : γ} (hd : c.draw g0 = (.ok A, g1))
    {y x u : Pulse} {s : NSt n m γ} (h : NInv c A g0 g1 y x u s) :
    Computes c A g0 g1 y x u s (nComputeDeriv c s) (derivsNoise (c.mc A) s.core.times y x u) fun s => s.core.deriv := by
  unfold nComputeDeriv derivsNoise
  rw [show (c.mc A).base = c.base from rfl]
  cases ha : c.base.approx with
  | other => exact ⟨rfl, fun he => by simp at he⟩
  | none =>
    obtain ⟨h1, h2⟩ := nPropagation_inv hst hd h true (Or.inr ⟨rfl, ha⟩)
    refine ⟨?_, fun he => ?_⟩
    · simp only [h1]
      cases noiseRun (c.mc A) true s.core.times y x u <;> rfl
    · obtain ⟨k1, k2, -, k3⟩ := h2 he
      exact ⟨k1, k2, k3 rfl⟩
  | grape =>
    have hc : c.base.calcDeriv = false := by
      rcases hst with h | h | h
      · simp [ha] at h
      · simp [ha] at h
      · exact h.2
    obtain ⟨h1, h2⟩ := nEnsure_computes hst hd h
    rw [hc] at h1 h2
    rw [errOf_props, show (c.mc A).base.calcDeriv = c.base.calcDeriv from rfl, hc] at h1
    simp only
    generalize nEnsure c false s = r at *
    obtain ⟨e, s'⟩ := r
    cases hrun : noiseRun (c.mc A) false s.core.times y x u with
    | error e' =>
      rw [hrun] at h1
      simp only [errOf] at h1
      subst h1
      exact ⟨rfl, fun he => by simp at he⟩
    | ok out =>
      rw [hrun] at h1
      simp only [errOf] at h1
      subst h1
      obtain ⟨hI, ht, hp⟩ := h2 rfl
      obtain ⟨p, hp1⟩ := Option.isSome_iff_exists.mp hp
      simp only at ht hp1 hI hp ⊢
      have hcells := hI.core.prop p hp1
      rw [ht, cells, if_neg (by simp [hc])] at hcells
      have hspec : specDeriv c.base s.core.times u = orErr (grapeCells c.base s.core.times u).2
          (.ok (grapeCells c.base s.core.times u).1) := by
        simp only [specDeriv, ha, hcells, orErr]
      have hcf : computeDeriv c.base s'.core = ((grapeCells c.base s.core.times u).2,
          { s'.core with deriv := some (grapeCells c.base s.core.times u).1 }) := by
        simp only [computeDeriv, ha, ensureProp, hp1, Option.getD_some, hI.core.amps, ht, grapeCells, hcells]
      rw [hcf]
      simp only [bind, Except.bind]
      rw [hspec]
      cases hl : (grapeCells c.base s.core.times u).2 with
      | some e => exact ⟨rfl, fun he => by simp at he⟩
      | none =>
        rw [hl] at hspec
        simp only [orErr] at hspec ⊢
        obtain ⟨q, hq, hen⟩ := nEnsureNoise_some (wd := false) hI hp
          { s'.core with deriv := some (grapeCells c.base s.core.times u).1 }
        rw [hen]
        have hps : propsNoise (c.mc A) s.core.times y x u = .ok (out.map Prod.fst) := by
          unfold propsNoise
          rw [show (c.mc A).base.calcDeriv = c.base.calcDeriv from rfl, hc, hrun]
          rfl
        have hqp := hI.prop q hq
        rw [ht, hps] at hqp
        simp only [Except.ok.injEq] at hqp
        subst hqp
        simp only [hq, Option.getD_some, hI.core.amps, ht]
        have hin : inOrder [] (out.map fun o => grapeTrace c.base s.core.times u o.1) = orErr
            (fillTraces (List.replicate c.base.nCtrl (s.core.times.map fun _ => none))
              ((out.map Prod.fst).map (grapeTraceCells c.base s.core.times u))).2 (.ok
            (fillTraces (List.replicate c.base.nCtrl (s.core.times.map fun _ => none))
              ((out.map Prod.fst).map (grapeTraceCells c.base s.core.times u))).1) := by
          rw [← fillTraces_eq _ [], List.map_map, List.map_map]
          congr 1
          refine List.map_congr_left fun o _ => ?_
          simp only [grapeTrace, inOrder, grapeTraceCells, Function.comp]
          generalize fill [] ((List.range s.core.times.length).map (grapeRow c.base.nCtrl (c.base.dirs s.core.times u) s.core.times o.1)) = r
          obtain ⟨r1, r2⟩ := r
          cases r2 <;> rfl
        refine ⟨by rw [hin, errOf_orErr], fun he => ?_⟩
        simp only at he
        rw [he] at hin
        refine ⟨⟨?_, hI.opt, hI.xp, Or.inr (hI.src_some hp), fun a ha' => ht ▸ hI.prop a (hq.trans ha'),
          fun a ha' => ht ▸ hI.fwd a ha', fun a ha' => ht ▸ hI.rev a ha', ?_, ?_, hI.fwdIff, hI.revIff, rfl⟩, rfl, rfl⟩
        · refine ⟨rfl, hI.core.dyn, fun a ha' => ht ▸ hI.core.prop a ha', fun a ha' => ht ▸ hI.core.fwd a ha',
            fun a ha' => ht ▸ hI.core.rev a ha', fun f hf => ?_⟩
          simp only [Option.some.injEq] at hf
          simp only [ht]
          rw [hspec, hf]
        · intro f hf
          simp only [Option.some.injEq] at hf
          simp only [ht]
          unfold derivsNoise
          rw [show (c.mc A).base = c.base from rfl, ha]
          simp only [hrun, bind, Except.bind, hspec, hin, orErr, hf]
        · exact hq ▸ hI.propIff

/-! ## Reads -/

/-- What a read returns, and what holds after a successful read. -/
def NReadOk {α : Type} (c : NCfg n m γ) (A : Arr3) (g0 g1 : γ) (y x u : Pulse) (s : NSt n m γ)
    (r : Except PyErr α × NSt n m γ) (spec : Except PyErr α) : Prop :=
  r.1 = spec ∧ ((∃ v, r.1 = .ok v) → NInv c A g0 g1 y x u r.2 ∧ r.2.core.times = s.core.times ∧ r.2.rng = g1)

theorem nRead_ok {α β δ : Type} {c : NCfg n m γ} {A : Arr3} {g0 g1 : γ} {y x u : Pulse} {s : NSt n m γ}
    (h : NInv c A g0 g1 y x u s) {get : NSt n m γ → Option α} {d : α} {compute : NSt n m γ → Option PyErr × NSt n m γ}
    {spec : Except PyErr α} {specC : Except PyErr β} {getC : NSt n m γ → Option δ}
    (hC : Computes c A g0 g1 y x u s (compute s) specC getC) (he : ∀ e, specC = .error e → spec = .error e)
    (hv : ∀ s', NInv c A g0 g1 y x u s' → s'.core.times = s.core.times → ∀ v, get s' = some v → spec = .ok v)
    (hs : ∀ s', NInv c A g0 g1 y x u s' → (getC s').isSome = true → (get s').isSome = true)
    (hr : ∀ s', NInv c A g0 g1 y x u s' → (get s').isSome = true → s'.rng = g1) :
    NReadOk c A g0 g1 y x u s (nRead get d compute s) spec := by
  unfold nRead
  cases hg : get s with
  | some v => exact ⟨(hv s h rfl v hg).symm, fun _ => ⟨h, rfl, hr s h (by rw [hg]; rfl)⟩⟩
  | none =>
    obtain ⟨h1, h2⟩ := hC
    generalize compute s = r at *
    obtain ⟨e, s'⟩ := r
    simp only at h1 h2 ⊢
    cases e with
    | some e =>
      cases hsp : specC with
      | ok v => rw [hsp] at h1; simp [errOf] at h1
      | error e' =>
        rw [hsp] at h1
        simp only [errOf, Option.some.injEq] at h1
        refine ⟨by rw [he e' hsp, h1], ?_⟩
        rintro ⟨v, hv⟩
        simp at hv
    | none =>
      obtain ⟨h3, h4, h5⟩ := h2 rfl
      have h6 := hs s' h3 h5
      obtain ⟨v, hv'⟩ := Option.isSome_iff_exists.mp h6
      simp only [hv', Option.getD_some]
      exact ⟨(hv s' h3 h4 v hv').symm, fun _ => ⟨h3, h4, hr s' h3 h6⟩⟩

section
variable {c : NCfg n m γ} {A : Arr3} {g0 g1 : γ} {y x u : Pulse} {s : NSt n m γ}

theorem NInv.rng_of_core (h : NInv c A g0 g1 y x u s)
    (hs : s.core.prop.isSome = true ∨ s.core.fwd.isSome = true ∨ s.core.rev.isSome = true ∨ s.core.deriv.isSome = true) :
    s.rng = g1 := by
  rcases h.src with ⟨_, _, h1, h2, h3, h4⟩ | ⟨_, _, _, h5⟩
  · rw [h1, h2, h3, h4] at hs
    simp at hs
  · exact h5

theorem ok_of_isSome {α β : Type} {a : Option α} {b : Option β} (h : a.isSome = b.isSome) {v : α} (ha : a = some v) :
    ∃ w, b = some w := by
  rw [ha] at h
  exact Option.isSome_iff_exists.mp h.symm

theorem nProps_ok (hst : Stable c.base) (hd : c.draw g0 = (.ok A, g1)) (h : NInv c A g0 g1 y x u s) :
    NReadOk c A g0 g1 y x u s (nProps c s) ((propsNoise (c.mc A) s.core.times y x u).bind fun _ =>
      specProps (c.mc A).base s.core.times u) := by
  refine nRead_ok h (nPropagation_computes hst hd h) (fun e he => by rw [he]; rfl) ?_ (fun _ _ h => h)
    fun s' h' hs => h'.rng_of_core (Or.inl hs)
  intro s' h' ht v hv
  obtain ⟨w, hw⟩ := ok_of_isSome h'.propIff hv
  have h1 := h'.core.prop v hv
  rw [← ht, h'.prop w hw]
  change specProps c.base s'.core.times u = _
  rw [specProps, h1]
  rfl

theorem nFwd_ok (hst : Stable c.base) (hd : c.draw g0 = (.ok A, g1)) (h : NInv c A g0 g1 y x u s) :
    NReadOk c A g0 g1 y x u s (nFwd c s) ((fwdNoise (c.mc A) s.core.times y x u).bind fun _ =>
      specFwd (c.mc A).base s.core.times u) := by
  refine nRead_ok h (nComputeFwd_computes hst hd h) (fun e he => by rw [he]; rfl) ?_ (fun _ _ h => h)
    fun s' h' hs => h'.rng_of_core (Or.inr (Or.inl hs))
  intro s' h' ht v hv
  obtain ⟨w, hw⟩ := ok_of_isSome h'.fwdIff hv
  rw [← ht, h'.fwd w hw]
  exact h'.core.fwd v hv

theorem nRev_ok (hst : Stable c.base) (hd : c.draw g0 = (.ok A, g1)) (h : NInv c A g0 g1 y x u s) :
    NReadOk c A g0 g1 y x u s (nRev c s) ((revNoise (c.mc A) s.core.times y x u).bind fun _ =>
      specRev (c.mc A).base s.core.times u) := by
  refine nRead_ok h (nComputeRev_computes hst hd h) (fun e he => by rw [he]; rfl) ?_ (fun _ _ h => h)
    fun s' h' hs => h'.rng_of_core (Or.inr (Or.inr (Or.inl hs)))
  intro s' h' ht v hv
  obtain ⟨w, hw⟩ := ok_of_isSome h'.revIff hv
  rw [← ht, h'.rev w hw]
  exact h'.core.rev v hv

theorem nDeriv_ok (hst : Stable c.base) (hd : c.draw g0 = (.ok A, g1)) (h : NInv c A g0 g1 y x u s) :
    NReadOk c A g0 g1 y x u s (nDeriv c s) ((derivsNoise (c.mc A) s.core.times y x u).bind fun _ =>
      specDeriv (c.mc A).base s.core.times u) := by
  refine nRead_ok h (nComputeDeriv_computes hst hd h) (fun e he => by rw [he]; rfl) ?_ (fun _ _ h => h)
    fun s' h' hs => h'.rng_of_core (Or.inr (Or.inr (Or.inr hs)))
  intro s' h' ht v hv
  obtain ⟨w, hw⟩ := ok_of_isSome h'.derivIff hv
  rw [← ht, h'.deriv w hw]
  exact h'.core.deriv v hv

theorem nPropsNoise_ok (hst : Stable c.base) (hd : c.draw g0 = (.ok A, g1)) (h : NInv c A g0 g1 y x u s) :
    NReadOk c A g0 g1 y x u s (nPropsNoise c s) (propsNoise (c.mc A) s.core.times y x u) :=
  nRead_ok h (nPropagation_computes hst hd h) (fun _ he => he) (fun _ h' ht v hv => ht ▸ h'.prop v hv)
    (fun _ h' hs => h'.propIff ▸ hs) fun _ h' hs => h'.rng_of_core (Or.inl (h'.propIff.symm ▸ hs))

theorem nFwdNoise_ok (hst : Stable c.base) (hd : c.draw g0 = (.ok A, g1)) (h : NInv c A g0 g1 y x u s) :
    NReadOk c A g0 g1 y x u s (nFwdNoise c s) (fwdNoise (c.mc A) s.core.times y x u) :=
  nRead_ok h (nComputeFwd_computes hst hd h) (fun _ he => he) (fun _ h' ht v hv => ht ▸ h'.fwd v hv)
    (fun _ h' hs => h'.fwdIff ▸ hs) fun _ h' hs => h'.rng_of_core (Or.inr (Or.inl (h'.fwdIff.symm ▸ hs)))

theorem nRevNoise_ok (hst : Stable c.base) (hd : c.draw g0 = (.ok A, g1)) (h : NInv c A g0 g1 y x u s) :
    NReadOk c A g0 g1 y x u s (nRevNoise c s) (revNoise (c.mc A) s.core.times y x u) :=
  nRead_ok h (nComputeRev_computes hst hd h) (fun _ he => he) (fun _ h' ht v hv => ht ▸ h'.rev v hv)
    (fun _ h' hs => h'.revIff ▸ hs) fun _ h' hs => h'.rng_of_core (Or.inr (Or.inr (Or.inl (h'.revIff.symm ▸ hs))))

theorem nDerivNoise_ok (hst : Stable c.base) (hd : c.draw g0 = (.ok A, g1)) (h : NInv c A g0 g1 y x u s) :
    NReadOk c A g0 g1 y x u s (nDerivNoise c s) (derivsNoise (c.mc A) s.core.times y x u) :=
  nRead_ok h (nComputeDeriv_computes hst hd h) (fun _ he => he) (fun _ h' ht v hv => ht ▸ h'.deriv v hv)
    (fun _ h' hs => h'.derivIff ▸ hs) fun _ h' hs => h'.rng_of_core (Or.inr (Or.inr (Or.inr (h'.derivIff.symm ▸ hs))))

theorem NInv.reads (hst : Stable c.base) (hd : c.draw g0 = (.ok A, g1)) (h : NInv c A g0 g1 y x u s) :
    NReads (c.mc A) s.core.times y x u c s :=
  ⟨(nProps_ok hst hd h).1, (nFwd_ok hst hd h).1, (nRev_ok hst hd h).1, (nDeriv_ok hst hd h).1, (nPropsNoise_ok hst hd h).1,
    (nFwdNoise_ok hst hd h).1, (nRevNoise_ok hst hd h).1, (nDerivNoise_ok hst hd h).1⟩

omit [DecidableEq n] [Fintype n] in
theorem nOutcome_none {α : Type} {r : Except PyErr α × NSt n m γ} {s' : NSt n m γ} (h : nOutcome r = (none, s')) :
    (∃ v, r.1 = .ok v) ∧ r.2 = s' := by
  obtain ⟨a, s''⟩ := r
  cases a with
  | error e => simp [nOutcome] at h
  | ok v => simp only [nOutcome, Prod.mk.injEq, true_and] at h; exact ⟨⟨v, rfl⟩, h⟩

/-- A successful operation other than changing grid or pulse. -/
theorem nRun_inv (hst : Stable c.base) (hd : c.draw g0 = (.ok A, g1)) (h : NInv c A g0 g1 y x u s) {op : NOp}
    (ho : op.isRead = true ∨ op = .set y) {s' : NSt n m γ} (hr : nRun c op s = (none, s')) :
    NInv c A g0 g1 y x u s' ∧ s'.core.times = s.core.times ∧ (op.isRead = true → s'.rng = g1) ∧
      (op.isRead = false → s'.rng = s.rng) := by
  have key : ∀ {α : Type} {r : Except PyErr α × NSt n m γ} {spec : Except PyErr α}, NReadOk c A g0 g1 y x u s r spec →
      op.isRead = true → nOutcome r = (none, s') →
      NInv c A g0 g1 y x u s' ∧ s'.core.times = s.core.times ∧ (op.isRead = true → s'.rng = g1) ∧
        (op.isRead = false → s'.rng = s.rng) := by
    intro α r spec h1 hop h2
    obtain ⟨h3, h4⟩ := nOutcome_none h2
    obtain ⟨k1, k2, k3⟩ := h1.2 h3
    rw [h4] at k1 k2 k3
    exact ⟨k1, k2, fun _ => k3, fun hf => by rw [hop] at hf; simp at hf⟩
  cases op with
  | set y' =>
    rcases ho with ho | ho
    · simp [NOp.isRead] at ho
    · simp only [NOp.set.injEq] at ho
      subst ho
      simp only [nRun, nSet, h.opt, if_true, Prod.mk.injEq, true_and] at hr
      subst hr
      exact ⟨h, rfl, fun hf => by simp [NOp.isRead] at hf, fun _ => rfl⟩
  | times τ => rcases ho with ho | ho <;> simp [NOp.isRead] at ho
  | props => exact key (nProps_ok hst hd h) rfl hr
  | fwd => exact key (nFwd_ok hst hd h) rfl hr
  | rev => exact key (nRev_ok hst hd h) rfl hr
  | deriv => exact key (nDeriv_ok hst hd h) rfl hr
  | propsNoise => exact key (nPropsNoise_ok hst hd h) rfl hr
  | fwdNoise => exact key (nFwdNoise_ok hst hd h) rfl hr
  | revNoise => exact key (nRevNoise_ok hst hd h) rfl hr
  | derivNoise => exact key (nDerivNoise_ok hst hd h) rfl hr

theorem nExecOk_inv (hst : Stable c.base) (hd : c.draw g0 = (.ok A, g1)) : ∀ (ops : List NOp) (s : NSt n m γ),
    NInv c A g0 g1 y x u s → (∀ op ∈ ops, op.isRead = true ∨ op = .set y) → ∀ s', nExecOk c ops s = some s' →
    NInv c A g0 g1 y x u s' ∧ s'.core.times = s.core.times ∧
      (s.rng = g0 → s'.rng = if ops.any NOp.isRead then g1 else g0) ∧ (s.rng = g1 → s'.rng = g1)
  | [], s, h, _, s', he => by
    simp only [nExecOk, Option.some.injEq] at he
    subst he
    exact ⟨h, rfl, fun hr => by simpa using hr, fun hr => hr⟩
  | op :: ops, s, h, ho, s', he => by
    unfold nExecOk at he
    cases hr : nRun c op s with
    | mk e s1 =>
      rw [hr] at he
      cases e with
      | some e => simp at he
      | none =>
        obtain ⟨h1, h2, h3, h4⟩ := nRun_inv hst hd h (ho op (by simp)) hr
        obtain ⟨k1, k2, k3, k4⟩ := nExecOk_inv hst hd ops s1 h1 (fun op' h' => ho op' (by simp [h'])) s' he
        refine ⟨k1, k2.trans h2, fun hg => ?_, fun hg => ?_⟩
        · cases hop : op.isRead with
          | true => simp [hop, k4 (h3 hop)]
          | false => simp only [List.any_cons, hop, Bool.false_or]; exact k3 ((h4 hop).trans hg)
        · cases hop : op.isRead with
          | true => exact k4 (h3 hop)
          | false => exact k4 ((h4 hop).trans hg)

end

omit [DecidableEq n] [Fintype n] in
/-- Setting a pulse that is accepted. -/
theorem setPars_accept (cfg : Cfg n m) (y x : Pulse) (r : Raw) (k : St n m) (hy : k.optPars ≠ some y)
    (h1 : cfg.tf k.tau y = .ok x) (h2 : cfg.amp x = .ok r) (h3 : checkAmps k.times.length cfg.nCtrl r = none) :
    setPars cfg y k = (none, { reset k with optPars := some y, xPars := some x, amps := some r.rows }) := by
  unfold setPars
  rw [if_neg hy]
  have h1' : cfg.tf (reset k).tau y = .ok x := h1
  have h3' : checkAmps (reset k).times.length cfg.nCtrl r = none := h3
  simp only [h1', h2, h3']
  rfl

theorem nSet_inv {c : NCfg n m γ} {s : NSt n m γ} {y x u : Pulse} (hy : s.core.optPars ≠ some y)
    (ha : NAccepts c s y x u) (A : Arr3) (g1 : γ) :
    (nSet c y s).1 = none ∧ NInv c A s.rng g1 y x u (nSet c y s).2 ∧ (nSet c y s).2.core.times = s.core.times ∧
      (nSet c y s).2.rng = s.rng := by
  obtain ⟨r, h1, h2, h3, rfl⟩ := ha
  unfold nSet
  rw [if_neg hy]
  simp only [setPars_accept c.base y x r s.core hy h1 h2 h3]
  refine ⟨trivial, ⟨?_, rfl, rfl, Or.inl ⟨rfl, rfl, rfl, rfl, rfl, rfl⟩, ?_, ?_, ?_, ?_, rfl, rfl, rfl, rfl⟩, rfl, rfl⟩
  · exact ⟨rfl, fun _ h => by simp [reset] at h, fun _ h => by simp [reset] at h, fun _ h => by simp [reset] at h,
      fun _ h => by simp [reset] at h, fun _ h => by simp [reset] at h⟩
  all_goals
    intro p hp
    simp [nReset] at hp

/-- **C100** (proved part): in whatever state the solver is, after a new pulse has been accepted every result read for this
pulse, with and without noise, in any order and any number of times, is the one for the same noise samples: those which the
generator delivers in the state it had when the pulse was set.  The generator is read once, at the first result, and not
again.  Assumed: none of the operations so far has raised an exception since the pulse was set, and the result of a solver
without noise does not depend on the order of the reads (`Stable`, see C29). -/
theorem c100_realisation_partial (c : NCfg n m γ) (hst : Stable c.base) (s₀ : NSt n m γ) (y x u : Pulse)
    (hy : s₀.core.optPars ≠ some y) (ha : NAccepts c s₀ y x u) (A : Arr3) (g1 : γ) (hd : c.draw s₀.rng = (.ok A, g1))
    (ops : List NOp) (ho : ∀ op ∈ ops, op.isRead = true ∨ op = .set y) (s : NSt n m γ)
    (hs : nExecOk c (.set y :: ops) s₀ = some s) :
    NReads (c.mc A) s₀.core.times y x u c s ∧ s.rng = (if ops.any NOp.isRead then g1 else s₀.rng) ∧
    ∀ op s', op.isRead = true → nRun c op s = (none, s') → s'.rng = g1 := by
  obtain ⟨h1, h2, h3, h4⟩ := nSet_inv hy ha A g1
  have hs' : nExecOk c ops (nSet c y s₀).2 = some s := by
    unfold nExecOk at hs
    rw [show nRun c (.set y) s₀ = nSet c y s₀ from rfl] at hs
    generalize nSet c y s₀ = r at *
    obtain ⟨e, s1⟩ := r
    simp only at h1
    subst h1
    exact hs
  obtain ⟨k1, k2, k3, k4⟩ := nExecOk_inv hst hd ops _ h2 ho s hs'
  have hr := k1.reads hst hd
  rw [k2, h3] at hr
  exact ⟨hr, k3 h4, fun op s' hop hrun => (nRun_inv hst hd k1 (Or.inl hop) hrun).2.2.1 hop⟩

/-- **C100** (new durations): in whatever state the solver with the pulse `y` is, also if results have been read before, after
`set_times` every result, with and without noise, is the one for the new durations and for one new set of noise samples.
Assumed as in `c100_realisation_partial`. -/
theorem c100_times_partial (c : NCfg n m γ) (hst : Stable c.base) (s₀ : NSt n m γ) (y x u : Pulse)
    (h1 : s₀.core.optPars = some y) (h2 : s₀.core.xPars = some x) (h3 : s₀.core.amps = some u) (A : Arr3) (g1 : γ)
    (hd : c.draw s₀.rng = (.ok A, g1)) (τ : List ℝ) (ops : List NOp) (ho : ∀ op ∈ ops, op.isRead = true ∨ op = .set y)
    (s : NSt n m γ) (hs : nExecOk c (.times τ :: ops) s₀ = some s) :
    NReads (c.mc A) (c.base.xTimes τ) y x u c s ∧ s.rng = (if ops.any NOp.isRead then g1 else s₀.rng) := by
  have hI : NInv c A s₀.rng g1 y x u (nTimes c τ s₀) := by
    refine ⟨Inv.reset h3, h1, h2, Or.inl ⟨rfl, rfl, rfl, rfl, rfl, rfl⟩, ?_, ?_, ?_, ?_, rfl, rfl, rfl, rfl⟩
    all_goals
      intro p hp
      simp [nTimes, nReset] at hp
  obtain ⟨k1, k2, k3, -⟩ := nExecOk_inv hst hd ops _ hI ho s hs
  have hr := k1.reads hst hd
  rw [k2] at hr
  exact ⟨hr, k3 rfl⟩

/-! ## Several pulses -/

/-- The operations for a list of pulses: each is set and then read. -/
def session (blocks : List (Pulse × List NOp)) : List NOp := blocks.flatMap fun b => .set b.1 :: b.2

theorem nExecOk_append (c : NCfg n m γ) : ∀ (l l' : List NOp) (s : NSt n m γ),
    nExecOk c (l ++ l') s = (nExecOk c l s).bind fun s' => nExecOk c l' s'
  | [], l', s => rfl
  | op :: l, l', s => by
    rw [List.cons_append, nExecOk, nExecOk]
    cases nRun c op s with
    | mk e s1 =>
      cases e with
      | some e => rfl
      | none => exact nExecOk_append c l l' s1

/-- If the generator raises, so does every read. -/
theorem nRun_draw_error {c : NCfg n m γ} {s : NSt n m γ} {e : PyErr} {g : γ} (hd : c.draw s.rng = (.error e, g))
    (h1 : s.gens = none) (h2 : s.prop = none) (h3 : s.fwd = none) (h4 : s.rev = none) (h5 : s.deriv = none)
    (k2 : s.core.prop = none) (k3 : s.core.fwd = none) (k4 : s.core.rev = none) (k5 : s.core.deriv = none) (op : NOp)
    (hop : op.isRead = true) (s' : NSt n m γ) : nRun c op s ≠ (none, s') := by
  have hp : ∀ wd, ∃ e' s1, nPropagation c wd s = (some e', s1) := by
    intro wd
    unfold nPropagation
    cases hA : s.core.amps with
    | none => exact ⟨_, _, rfl⟩
    | some u =>
      simp only [h1, nGens, hd]
      exact ⟨_, _, rfl⟩
  have hen : ∀ wd, nEnsure c wd s = nPropagation c wd s := by
    intro wd
    unfold nEnsure
    rw [k2]
  have hf : ∃ e' s1, nComputeFwd c s = (some e', s1) := by
    obtain ⟨e', s1, h⟩ := hp c.base.calcDeriv
    unfold nComputeFwd
    rw [hen, h]
    exact ⟨_, _, rfl⟩
  have hrv : ∃ e' s1, nComputeRev c s = (some e', s1) := by
    obtain ⟨e', s1, h⟩ := hp c.base.calcDeriv
    unfold nComputeRev
    rw [hen, h]
    exact ⟨_, _, rfl⟩
  have hdv : ∃ e' s1, nComputeDeriv c s = (some e', s1) := by
    unfold nComputeDeriv
    cases c.base.approx with
    | none => exact hp true
    | other => exact ⟨_, _, rfl⟩
    | grape =>
      obtain ⟨e', s1, h⟩ := hp false
      simp only [hen, h]
      exact ⟨_, _, rfl⟩
  have key : ∀ {α : Type} (get : NSt n m γ → Option α) (d : α) (f : NSt n m γ → Option PyErr × NSt n m γ), get s = none →
      (∃ e' s1, f s = (some e', s1)) → nOutcome (nRead get d f s) ≠ (none, s') := by
    rintro α get d f hg ⟨e', s1, h⟩ hc
    simp only [nRead, hg, h, nOutcome, Prod.mk.injEq] at hc
    simp at hc
  cases op with
  | set y => simp [NOp.isRead] at hop
  | times τ => simp [NOp.isRead] at hop
  | props => exact key _ _ _ k2 (hp _)
  | fwd => exact key _ _ _ k3 hf
  | rev => exact key _ _ _ k4 hrv
  | deriv => exact key _ _ _ k5 hdv
  | propsNoise => exact key _ _ _ h2 (hp _)
  | fwdNoise => exact key _ _ _ h3 hf
  | revNoise => exact key _ _ _ h4 hrv
  | derivNoise => exact key _ _ _ h5 hdv

/-- A new pulse that is set without exception is accepted. -/
theorem accepts_of_set {c : NCfg n m γ} {s : NSt n m γ} {y : Pulse} (hy : s.core.optPars ≠ some y)
    (h : (nSet c y s).1 = none) : ∃ x u, NAccepts c s y x u := by
  unfold nSet at h
  rw [if_neg hy] at h
  unfold setPars at h
  rw [if_neg hy] at h
  simp only at h
  have ht : (reset s.core).tau = s.core.tau := rfl
  have hs : (reset s.core).times = s.core.times := rfl
  rw [ht] at h
  cases hx : c.base.tf s.core.tau y with
  | error e => rw [hx] at h; simp at h
  | ok x =>
    rw [hx] at h
    simp only at h
    cases hr : c.base.amp x with
    | error e => rw [hr] at h; simp at h
    | ok r =>
      rw [hr] at h
      simp only [hs] at h
      cases hc : checkAmps s.core.times.length c.base.nCtrl r with
      | some e => rw [hc] at h; simp at h
      | none => exact ⟨x, r.rows, r, hx, hr, hc, rfl⟩

/-- Reads of the same pulse do not touch the generator once nothing but pulse sets happened. -/
theorem nExecOk_sets {c : NCfg n m γ} {y : Pulse} : ∀ (ops : List NOp) (s : NSt n m γ), s.core.optPars = some y →
    (∀ op ∈ ops, op.isRead = true ∨ op = .set y) → ops.any NOp.isRead = true → ∃ (op : NOp) (rest : List NOp),
      op.isRead = true ∧ nExecOk c ops s = nExecOk c (op :: rest) s
  | [], _, _, _, h => by simp at h
  | op :: ops, s, hy, ho, h => by
    cases hop : op.isRead with
    | true => exact ⟨op, ops, hop, rfl⟩
    | false =>
      rcases ho op (by simp) with h' | h'
      · rw [hop] at h'; simp at h'
      · subst h'
        obtain ⟨op', rest, k1, k2⟩ := nExecOk_sets ops s hy (fun o h' => ho o (by simp [h'])) (by simpa [hop] using h)
        refine ⟨op', rest, k1, ?_⟩
        rw [nExecOk, show nRun c (.set y) s = (none, s) by simp [nRun, nSet, hy]]
        exact k2

/-- One pulse, set and read: one read of the generator. -/
theorem block_draw (c : NCfg n m γ) (hst : Stable c.base) (s₀ : NSt n m γ) (y : Pulse) (hy : s₀.core.optPars ≠ some y)
    (ops : List NOp) (ho : ∀ op ∈ ops, op.isRead = true ∨ op = .set y) (hr : ops.any NOp.isRead = true) (s : NSt n m γ)
    (hs : nExecOk c (.set y :: ops) s₀ = some s) : s.rng = (c.draw s₀.rng).2 ∧ s.core.optPars = some y := by
  have hset : (nSet c y s₀).1 = none := by
    unfold nExecOk at hs
    rw [show nRun c (.set y) s₀ = nSet c y s₀ from rfl] at hs
    cases hn : nSet c y s₀ with
    | mk e s1 =>
      rw [hn] at hs
      cases e with
      | none => rfl
      | some e => simp at hs
  have hs' : nExecOk c ops (nSet c y s₀).2 = some s := by
    unfold nExecOk at hs
    rw [show nRun c (.set y) s₀ = nSet c y s₀ from rfl] at hs
    generalize nSet c y s₀ = r at *
    obtain ⟨e, s1⟩ := r
    simp only at hset
    subst hset
    exact hs
  obtain ⟨x, u, ha⟩ := accepts_of_set hy hset
  cases hd : c.draw s₀.rng with
  | mk a g1 =>
    cases a with
    | ok A =>
      obtain ⟨-, h2, -, h4⟩ := nSet_inv hy ha A g1
      obtain ⟨k1, k2, k3, k4⟩ := nExecOk_inv hst hd ops _ h2 ho s hs'
      exact ⟨by rw [k3 h4, hr]; rfl, k1.opt⟩
    | error e =>
      exfalso
      obtain ⟨-, h2, -, h4⟩ := nSet_inv hy ha ⟨0, 0, 0, fun _ _ _ => 0⟩ g1
      obtain ⟨op, rest, hop, h5⟩ := nExecOk_sets (c := c) ops _ h2.opt ho hr
      rw [h5, nExecOk] at hs'
      have hg : (nSet c y s₀).2.gens = none ∧ (nSet c y s₀).2.prop = none ∧ (nSet c y s₀).2.fwd = none ∧
          (nSet c y s₀).2.rev = none ∧ (nSet c y s₀).2.deriv = none := by
        unfold nSet
        rw [if_neg hy]
        exact ⟨rfl, rfl, rfl, rfl, rfl⟩
      obtain ⟨g1', g2, g3, g4, g5⟩ := hg
      have hc : ∀ {α β : Type} {a : Option α} {b : Option β}, a.isSome = b.isSome → b = none → a = none := by
        intro α β a b h hb
        subst hb
        simpa using h
      cases hrun : nRun c op (nSet c y s₀).2 with
      | mk e' s' =>
        rw [hrun] at hs'
        cases e' with
        | some e' => simp at hs'
        | none =>
          exact nRun_draw_error (by rw [h4]; exact hd) g1' g2 g3 g4 g5 (hc h2.propIff g2) (hc h2.fwdIff g3) (hc h2.revIff g4)
            (hc h2.derivIff g5) op hop s' hrun

/-- Every pulse differs from the one before. -/
def Fresh : Option Pulse → List (Pulse × List NOp) → Prop
  | _, [] => True
  | p, b :: bs => p ≠ some b.1 ∧ Fresh (some b.1) bs

/-- **C100** (counting): in a session in which pulses are set one after the other, each different from the one before and each
followed by at least one read and any number of further reads, and in which nothing raises, the noise trace generator is read
exactly once per pulse. -/
theorem c100_draws (c : NCfg n m γ) (hst : Stable c.base) : ∀ (blocks : List (Pulse × List NOp)) (s₀ : NSt n m γ),
    Fresh s₀.core.optPars blocks → (∀ b ∈ blocks, (∀ op ∈ b.2, op.isRead = true ∨ op = .set b.1) ∧ b.2.any NOp.isRead = true) →
    ∀ s, nExecOk c (session blocks) s₀ = some s → s.rng = (fun g => (c.draw g).2)^[blocks.length] s₀.rng
  | [], s₀, _, _, s, hs => by
    simp only [session, List.flatMap_nil, nExecOk, Option.some.injEq] at hs
    rw [← hs]
    rfl
  | b :: bs, s₀, hf, hb, s, hs => by
    rw [session, List.flatMap_cons, nExecOk_append] at hs
    cases h1 : nExecOk c (.set b.1 :: b.2) s₀ with
    | none => rw [h1] at hs; simp at hs
    | some s1 =>
      rw [h1, Option.bind_some] at hs
      obtain ⟨k1, k2⟩ := block_draw c hst s₀ b.1 hf.1 b.2 (hb b (by simp)).1 (hb b (by simp)).2 s1 h1
      have ih := c100_draws c hst bs s1 (by rw [k2]; exact hf.2) (fun b' h' => hb b' (by simp [h'])) s hs
      rw [ih, k1]
      rfl

/-! ## When nothing raises -/

/-- The four results with noise can be computed for the samples of `M`. -/
structure NComputable (M : MC n m) (times : List ℝ) (y x u : Pulse) : Prop where
  props : ∃ v, propsNoise M times y x u = .ok v
  fwd : ∃ v, fwdNoise M times y x u = .ok v
  rev : ∃ v, revNoise M times y x u = .ok v
  deriv : ∃ v, derivsNoise M times y x u = .ok v

/-- The results without noise can be computed then. -/
theorem NComputable.base {M : MC n m} {times : List ℝ} {y x u : Pulse} (h : NComputable M times y x u) :
    (∃ v, specProps M.base times u = .ok v) ∧ (∃ v, specFwd M.base times u = .ok v) ∧
    (∃ v, specRev M.base times u = .ok v) ∧ ∃ v, specDeriv M.base times u = .ok v := by
  refine ⟨?_, ?_, ?_, ?_⟩
  · obtain ⟨v, hv⟩ := h.props
    unfold propsNoise at hv
    cases hr : noiseRun M M.base.calcDeriv times y x u with
    | error e => rw [hr] at hv; simp [bind, Except.bind] at hv
    | ok out =>
      have h1 := noiseRun_base hr
      have h2 := traceRun_props M.base times u
      cases ht : traceRun M.base M.base.calcDeriv times u (M.base.gens u) with
      | error e => rw [ht] at h1; simp [errOf] at h1
      | ok b => rw [ht] at h2; exact ⟨_, h2.symm⟩
  · obtain ⟨v, hv⟩ := h.fwd
    obtain ⟨p, hp⟩ := h.props
    unfold fwdNoise at hv
    rw [hp] at hv
    cases hs : specFwd M.base times u with
    | error e => rw [hs] at hv; simp [bind, Except.bind] at hv
    | ok w => exact ⟨w, rfl⟩
  · obtain ⟨v, hv⟩ := h.rev
    obtain ⟨p, hp⟩ := h.props
    unfold revNoise at hv
    rw [hp] at hv
    cases hs : specRev M.base times u with
    | error e => rw [hs] at hv; simp [bind, Except.bind] at hv
    | ok w => exact ⟨w, rfl⟩
  · obtain ⟨v, hv⟩ := h.deriv
    unfold derivsNoise at hv
    cases ha : M.base.approx with
    | other => rw [ha] at hv; simp at hv
    | grape =>
      rw [ha] at hv
      simp only at hv
      cases hr : noiseRun M false times y x u with
      | error e => rw [hr] at hv; simp [bind, Except.bind] at hv
      | ok out =>
        rw [hr] at hv
        cases hs : specDeriv M.base times u with
        | error e => rw [hs] at hv; simp [bind, Except.bind] at hv
        | ok w => exact ⟨w, rfl⟩
    | none =>
      rw [ha] at hv
      simp only at hv
      cases hr : noiseRun M true times y x u with
      | error e => rw [hr] at hv; simp [bind, Except.bind] at hv
      | ok out =>
        have h1 := noiseRun_base hr
        have h2 := traceRun_derivs M.base ha times u
        cases ht : traceRun M.base true times u (M.base.gens u) with
        | error e => rw [ht] at h1; simp [errOf] at h1
        | ok b => rw [ht] at h2; exact ⟨_, h2.symm⟩

/-- **C100** (no exception): if the results can be computed for the samples the generator delivers, no read of any of them in
any order raises. -/
theorem c100_total (c : NCfg n m γ) (hst : Stable c.base) (s₀ : NSt n m γ) (y x u : Pulse)
    (hy : s₀.core.optPars ≠ some y) (ha : NAccepts c s₀ y x u) (A : Arr3) (g1 : γ) (hd : c.draw s₀.rng = (.ok A, g1))
    (hc : NComputable (c.mc A) s₀.core.times y x u) (ops : List NOp) (ho : ∀ op ∈ ops, op.isRead = true ∨ op = .set y) :
    ∃ s, nExecOk c (.set y :: ops) s₀ = some s := by
  obtain ⟨h1, h2, h3, -⟩ := nSet_inv hy ha A g1
  obtain ⟨b1, b2, b3, b4⟩ := hc.base
  have step : ∀ s, NInv c A s₀.rng g1 y x u s → s.core.times = s₀.core.times → ∀ op : NOp, (op.isRead = true ∨ op = .set y) →
      ∃ s', nRun c op s = (none, s') := by
    intro s hI ht op hop
    have key : ∀ {α : Type} {r : Except PyErr α × NSt n m γ} {spec : Except PyErr α},
        NReadOk c A s₀.rng g1 y x u s r spec → (∃ v, spec = .ok v) → ∃ s', nOutcome r = (none, s') := by
      rintro α ⟨r1, r2⟩ spec h ⟨v, hv⟩
      have := h.1
      rw [hv] at this
      simp only at this
      subst this
      exact ⟨r2, rfl⟩
    have bnd : ∀ {α β : Type} {a : Except PyErr α} {b : Except PyErr β}, (∃ v, a = .ok v) → (∃ v, b = .ok v) →
        ∃ v, (a.bind fun _ => b) = .ok v := by
      rintro α β a b ⟨v, rfl⟩ ⟨w, rfl⟩
      exact ⟨w, rfl⟩
    cases op with
    | set y' =>
      rcases hop with h | h
      · simp [NOp.isRead] at h
      · simp only [NOp.set.injEq] at h
        subst h
        exact ⟨s, by simp [nRun, nSet, hI.opt]⟩
    | times τ => rcases hop with h | h <;> simp [NOp.isRead] at h
    | props => exact key (nProps_ok hst hd hI) (by rw [ht]; exact bnd hc.props b1)
    | fwd => exact key (nFwd_ok hst hd hI) (by rw [ht]; exact bnd hc.fwd b2)
    | rev => exact key (nRev_ok hst hd hI) (by rw [ht]; exact bnd hc.rev b3)
    | deriv => exact key (nDeriv_ok hst hd hI) (by rw [ht]; exact bnd hc.deriv b4)
    | propsNoise => exact key (nPropsNoise_ok hst hd hI) (by rw [ht]; exact hc.props)
    | fwdNoise => exact key (nFwdNoise_ok hst hd hI) (by rw [ht]; exact hc.fwd)
    | revNoise => exact key (nRevNoise_ok hst hd hI) (by rw [ht]; exact hc.rev)
    | derivNoise => exact key (nDerivNoise_ok hst hd hI) (by rw [ht]; exact hc.deriv)
  have run : ∀ (ops : List NOp) (s : NSt n m γ), NInv c A s₀.rng g1 y x u s → s.core.times = s₀.core.times →
      (∀ op ∈ ops, op.isRead = true ∨ op = .set y) → ∃ s', nExecOk c ops s = some s' := by
    intro ops
    induction ops with
    | nil => intro s _ _ _; exact ⟨s, rfl⟩
    | cons op ops ih =>
      intro s hI ht ho
      obtain ⟨s', hs'⟩ := step s hI ht op (ho op (by simp))
      obtain ⟨k1, k2, -⟩ := nRun_inv hst hd hI (ho op (by simp)) hs'
      obtain ⟨s'', hs''⟩ := ih s' k1 (k2.trans ht) fun op' h' => ho op' (by simp [h'])
      exact ⟨s'', by rw [nExecOk, hs']; exact hs''⟩
  obtain ⟨s, hs⟩ := run ops _ h2 h3 ho
  refine ⟨s, ?_⟩
  rw [nExecOk, show nRun c (.set y) s₀ = nSet c y s₀ from rfl]
  generalize nSet c y s₀ = r at *
  obtain ⟨e, s1⟩ := r
  simp only at h1
  subst h1
  exact hs

/-- **C100** (values): with one sample per noise operator, trace and time step, whatever has been read since the pulse `y` was
set, the results for trace `k` are those of a solver without noise whose drift contains the samples of trace `k` of the one
realisation `A`. -/
theorem c100_values (p : SPar n m) (c : NCfg n m γ) (hb : c.base = p.cfg) (hst : Stable p.cfg) (s₀ : NSt n m γ)
    (hT : s₀.core.times = p.xTimes s₀.core.tau) (hv : p.Valid s₀.core.tau) (hτ : p.xTimes s₀.core.tau ≠ []) (y x u : Pulse)
    (hy : s₀.core.optPars ≠ some y) (ha : NAccepts c s₀ y x u) (A : Arr3) (g1 : γ) (hd : c.draw s₀.rng = (.ok A, g1))
    (hp : (c.mc A).ProcsOk) (hna : c.noiseAmp = none) (h0 : A.d0 = c.hNoise.length) (h1 : A.d1 = c.nTraces)
    (h2 : A.d2 = s₀.core.times.length) (ops : List NOp) (ho : ∀ op ∈ ops, op.isRead = true ∨ op = .set y) (s : NSt n m γ)
    (hs : nExecOk c (.set y :: ops) s₀ = some s) :
    ∃ ps f r, (nPropsNoise c s).1 = .ok ps ∧ (nFwdNoise c s).1 = .ok f ∧ (nRevNoise c s).1 = .ok r ∧
      ps.length = c.nTraces ∧ f.length = c.nTraces ∧ r.length = c.nTraces ∧
      ∀ k, k < c.nTraces → ∃ psk fk rk, ps[k]? = some psk ∧ f[k]? = some fk ∧ r[k]? = some rk ∧
        (readProps (p.noisy c.hNoise A k).cfg (fresh (p.noisy c.hNoise A k).cfg s₀.core.tau y)).1 = .ok psk ∧
        (readFwd (p.noisy c.hNoise A k).cfg (fresh (p.noisy c.hNoise A k).cfg s₀.core.tau y)).1 = .ok fk ∧
        (readRev (p.noisy c.hNoise A k).cfg (fresh (p.noisy c.hNoise A k).cfg s₀.core.tau y)).1 = .ok rk := by
  obtain ⟨hr, -⟩ := c100_realisation_partial c (by rw [hb]; exact hst) s₀ y x u hy ha A g1 hd ops ho s hs
  have hu : ampsOf p.cfg s₀.core.tau y = some u := by
    obtain ⟨r, k1, k2, k3, k4⟩ := ha
    rw [hb] at k1 k2 k3
    obtain ⟨e1, e2, e3⟩ := (checkAmps_none _ _ _).mp k3
    rw [← k4]
    exact ampsOf_some p.cfg _ y x r k1 k2 e1 (by rw [e2, hT]; rfl) e3
  obtain ⟨ps, f, r, k1, k2, k3, k4, k5, k6, k7⟩ := c94_traces p s₀.core.tau hv y u y x hu hτ (c.mc A) hb hp hna h0 h1
    (by rw [← hT]; exact h2)
  rw [hT] at hr
  exact ⟨ps, f, r, by rw [hr.propsNoise, k1], by rw [hr.fwdNoise, k2], by rw [hr.revNoise, k3], k4, k5, k6, k7⟩

/-! ## Violations -/

/-- One time step, one control, one noise operator, one trace; the state of the generator counts the reads. -/
noncomputable def tinyMC (L : Lapack n) (init : Matrix n m ℂ) (H₀ H₁ N : Matrix n n ℂ) (procs : Procs) (A : Arr3) : NCfg n m ℕ :=
  { base := simpleCfg L .spectral false .none init [H₀] [H₁], hNoise := [N], procs := procs, noiseAmp := none, nTraces := 1,
    draw := fun k => (.ok A, k + 1) }

/-- A solver with the pulse `[[a]]` set. -/
noncomputable def tinySt (L : Lapack n) (init : Matrix n m ℂ) (H₀ H₁ N : Matrix n n ℂ) (procs : Procs) (A : Arr3) (τ a : ℝ) :
    NSt n m ℕ :=
  (nSet (tinyMC L init H₀ H₁ N procs A) [[a]] (nConstruct (tinyMC L init H₀ H₁ N procs A) [τ] 0)).2

theorem tinySt_eq (L : Lapack n) (init : Matrix n m ℂ) (H₀ H₁ N : Matrix n n ℂ) (procs : Procs) (A : Arr3) (τ a : ℝ) :
    tinySt L init H₀ H₁ N procs A τ a =
      ⟨⟨[τ], [τ], some [[a]], some [[a]], some [[a]], none, none, none, none, none⟩, none, none, none, none, none, 0⟩ := by
  obtain ⟨r, h1, h2, h3, h4⟩ := idAmp_ok [[a]] 1 (by simp) (by simp)
  unfold tinySt nSet
  rw [if_neg (by simp [nConstruct, construct, setTimes, reset])]
  have := setPars_accept (tinyMC L init H₀ H₁ N procs A).base [[a]] [[a]] r
    (nConstruct (tinyMC L init H₀ H₁ N procs A) [τ] 0).core (by simp [nConstruct, construct, setTimes, reset]) rfl h1 (by
      refine (checkAmps_none _ _ _).mpr ⟨h2, by rw [h4]; rfl, h3⟩)
  simp only [this, h4]
  rfl

/-- The generators without noise. -/
theorem tinyMC_gens (L : Lapack n) (init : Matrix n m ℂ) (H₀ H₁ N : Matrix n n ℂ) (procs : Procs) (A : Arr3) (a : ℝ) :
    (tinyMC L init H₀ H₁ N procs A).base.gens [[a]] = [(-Complex.I) • H₀ + (-Complex.I * (a : ℂ)) • H₁] := rfl

/-- **C100** (violation): the generator delivers more samples than there are time steps.  The first read raises IndexError; the
same read repeated succeeds and returns propagators computed from the samples that happened to be added before. -/
theorem c100_violated_samples (L : Lapack n) (init : Matrix n m ℂ) (H₀ H₁ N : Matrix n n ℂ) (τ a b : ℝ) :
    let c := tinyMC L init H₀ H₁ N (.int 1) ⟨1, 1, 2, fun _ _ _ => b⟩
    let s := tinySt L init H₀ H₁ N (.int 1) ⟨1, 1, 2, fun _ _ _ => b⟩ τ a
    (nPropsNoise c s).1 = .error .indexError ∧
    (nPropsNoise c (nPropsNoise c s).2).1 =
      .ok [[some (expProp L .spectral true ((-Complex.I) • H₀ + (-Complex.I * (a : ℂ)) • H₁ + (-Complex.I * (b : ℂ)) • N) τ)]] := by
  intro c s
  have hs : s = _ := tinySt_eq L init H₀ H₁ N (.int 1) ⟨1, 1, 2, fun _ _ _ => b⟩ τ a
  have hr : nPropsNoise c s = (.error .indexError,
      ⟨⟨[τ], [τ], some [[a]], some [[a]], some [[a]], some [(-Complex.I) • H₀ + (-Complex.I * (a : ℂ)) • H₁], none, none, none, none⟩,
        some [[(-Complex.I) • H₀ + (-Complex.I * (a : ℂ)) • H₁ + (-Complex.I * (b : ℂ)) • N]], none, none, none, none, 1⟩) := by
    rw [hs]
    rfl
  refine ⟨by rw [hr], ?_⟩
  rw [hr]
  rfl

/-- **C100** (violation): in parallel mode reading the derivatives raises NotImplementedError, and afterwards
`propagators_noise`, which has been returned correctly before, consists of `None`. -/
theorem c100_violated_parallel (L : Lapack n) (init : Matrix n m ℂ) (H₀ H₁ N : Matrix n n ℂ) (τ a b : ℝ) :
    let c := tinyMC L init H₀ H₁ N .none ⟨1, 1, 1, fun _ _ _ => b⟩
    let s := tinySt L init H₀ H₁ N .none ⟨1, 1, 1, fun _ _ _ => b⟩ τ a
    let s1 := (nPropsNoise c s).2
    let s2 := (nDerivNoise c s1).2
    (nPropsNoise c s).1 =
      .ok [[some (expProp L .spectral true ((-Complex.I) • H₀ + (-Complex.I * (a : ℂ)) • H₁ + (-Complex.I * (b : ℂ)) • N) τ)]] ∧
    (nDerivNoise c s1).1 = .error .notImplementedError ∧
    (nPropsNoise c s2).1 = .ok [[none]] := by
  intro c s s1 s2
  have hs : s = _ := tinySt_eq L init H₀ H₁ N .none ⟨1, 1, 1, fun _ _ _ => b⟩ τ a
  refine ⟨?_, ?_, ?_⟩
  · rw [hs]; rfl
  · simp only [s1]
    rw [hs]; rfl
  · simp only [s2, s1]
    rw [hs]; rfl

/-! ## Cases -/

/-- A qubit with one noise operator and two traces; samples that depend on the number of reads. -/
noncomputable def qubitN (L : Lapack (Fin 2)) : NCfg (Fin 2) (Fin 2) ℕ :=
  { base := (qubitPar L .none true).cfg, hNoise := [!![1, 0; 0, -1]], procs := .int 1, noiseAmp := none, nTraces := 2,
    draw := fun i => (.ok ⟨1, 2, 3, fun _ k t => 100 * i + 10 * k + t⟩, i + 1) }

theorem qubitN_accepts (L : Lapack (Fin 2)) (s : NSt (Fin 2) (Fin 2) ℕ) (hs : s.core.times.length = 3) (y : Pulse)
    (hl : y.length = 3) (hr : ∀ row ∈ y, row.length = 2) : NAccepts (qubitN L) s y y y := by
  obtain ⟨r, h1, h2, h3, h4⟩ := idAmp_ok y 2 (by rintro rfl; simp at hl) hr
  exact ⟨r, rfl, h1, (checkAmps_none _ _ _).mpr ⟨h2, by rw [h4, hl, hs], h3⟩, h4⟩

theorem qubitN_computable (L : Lapack (Fin 2)) (i : ℕ) (y : Pulse) (hl : y.length = 3) (hr : ∀ row ∈ y, row.length = 2) :
    NComputable ((qubitN L).mc ⟨1, 2, 3, fun _ k t => 100 * i + 10 * k + t⟩) [1, 2, 3] y y y := by
  have hst : Stable (qubitPar L .none true).cfg := Or.inl ⟨rfl, rfl⟩
  obtain ⟨ps, f, r, k1, k2, k3, -⟩ := c94_traces (qubitPar L .none true) [1, 2, 3] (qubitPar_valid L _ _) y y y y
    (qubitPar_amps L _ _ _ hl hr) (by simp [qubitPar]) ((qubitN L).mc ⟨1, 2, 3, fun _ k t => 100 * i + 10 * k + t⟩) rfl
    (Or.inl rfl) rfl rfl rfl rfl
  obtain ⟨d, k4, -⟩ := c94_derivatives (qubitPar L .none true) [1, 2, 3] (qubitPar_valid L _ _) hst rfl y y y y
    (qubitPar_amps L _ _ _ hl hr) ((qubitN L).mc ⟨1, 2, 3, fun _ k t => 100 * i + 10 * k + t⟩) rfl rfl rfl rfl rfl rfl
  exact ⟨⟨ps, k1⟩, ⟨f, k2⟩, ⟨r, k3⟩, ⟨d, k4⟩⟩

/-- `c100_total`, `c100_realisation_partial` and `c100_values` apply to a new solver: the generator is read once, and the
forward propagation of the second trace, read after the derivatives, belongs to the first realisation. -/
example (L : Lapack (Fin 2)) : ∃ s f fk, nExecOk (qubitN L) [.set [[1, 2], [3, 4], [5, 6]], .propsNoise, .derivNoise, .rev,
      .set [[1, 2], [3, 4], [5, 6]], .fwd] (nConstruct (qubitN L) [1, 2, 3] 0) = some s ∧ s.rng = 1 ∧
    (nFwdNoise (qubitN L) s).1 = .ok f ∧ f[1]? = some fk ∧
    (readFwd ((qubitPar L .none true).noisy [!![1, 0; 0, -1]] ⟨1, 2, 3, fun _ k t => 100 * (0 : ℕ) + 10 * k + t⟩ 1).cfg
      (fresh ((qubitPar L .none true).noisy [!![1, 0; 0, -1]] ⟨1, 2, 3, fun _ k t => 100 * (0 : ℕ) + 10 * k + t⟩ 1).cfg
        [1, 2, 3] [[1, 2], [3, 4], [5, 6]])).1 = .ok fk := by
  have hy : (nConstruct (qubitN L) [1, 2, 3] 0).core.optPars ≠ some [[1, 2], [3, 4], [5, 6]] := by
    simp [nConstruct, construct, setTimes, reset]
  have hst : Stable (qubitN L).base := Or.inl ⟨rfl, rfl⟩
  have ha := qubitN_accepts L (nConstruct (qubitN L) [1, 2, 3] 0) rfl [[1, 2], [3, 4], [5, 6]] rfl (by simp)
  have ho : ∀ op ∈ [NOp.propsNoise, .derivNoise, .rev, .set [[1, 2], [3, 4], [5, 6]], .fwd],
      op.isRead = true ∨ op = .set [[1, 2], [3, 4], [5, 6]] := by
    simp [NOp.isRead]
  obtain ⟨s, hs⟩ := c100_total (qubitN L) hst (nConstruct (qubitN L) [1, 2, 3] 0) _ _ _ hy ha _ 1 rfl
    (qubitN_computable L 0 _ rfl (by simp)) _ ho
  obtain ⟨-, h2, -⟩ := c100_realisation_partial (qubitN L) hst (nConstruct (qubitN L) [1, 2, 3] 0) _ _ _ hy ha _ 1 rfl _ ho s hs
  obtain ⟨ps, f, r, -, k2, -, -, -, -, k3⟩ := c100_values (qubitPar L .none true) (qubitN L) rfl hst
    (nConstruct (qubitN L) [1, 2, 3] 0) rfl (qubitPar_valid L _ _)
    (by show ([1, 2, 3] : List ℝ) ≠ []; simp) _ _ _ hy ha _ 1 rfl (Or.inl rfl) rfl rfl rfl rfl _ ho s hs
  obtain ⟨_, fk, _, -, k4, -, -, k5, -⟩ := k3 1 (by simp [qubitN])
  exact ⟨s, f, fk, hs, h2, k2, k4, k5⟩

/-- `c100_times_partial` applies: the durations are changed after a pulse has been set and its results have been read; the
generator is read a second time. -/
example (L : Lapack (Fin 2)) (s₁ : NSt (Fin 2) (Fin 2) ℕ) (hs : nExecOk (qubitN L) [.set [[1, 2], [3, 4], [5, 6]], .fwdNoise]
      (nConstruct (qubitN L) [1, 2, 3] 0) = some s₁) (s : NSt (Fin 2) (Fin 2) ℕ)
    (hs' : nExecOk (qubitN L) [.times [4, 5, 6], .derivNoise] s₁ = some s) : s.rng = 2 := by
  have hst : Stable (qubitN L).base := Or.inl ⟨rfl, rfl⟩
  have hy : (nConstruct (qubitN L) [1, 2, 3] 0).core.optPars ≠ some [[1, 2], [3, 4], [5, 6]] := by
    simp [nConstruct, construct, setTimes, reset]
  have ha := qubitN_accepts L (nConstruct (qubitN L) [1, 2, 3] 0) rfl [[1, 2], [3, 4], [5, 6]] rfl (by simp)
  have hI := (nSet_inv hy ha ⟨1, 2, 3, fun _ k t => 100 * (0 : ℕ) + 10 * k + t⟩ 1)
  have hset : nSet (qubitN L) [[1, 2], [3, 4], [5, 6]] (nConstruct (qubitN L) [1, 2, 3] 0) =
      (none, (nSet (qubitN L) [[1, 2], [3, 4], [5, 6]] (nConstruct (qubitN L) [1, 2, 3] 0)).2) := Prod.ext hI.1 rfl
  rw [nExecOk, show nRun (qubitN L) (.set [[1, 2], [3, 4], [5, 6]]) (nConstruct (qubitN L) [1, 2, 3] 0) = _ from hset] at hs
  obtain ⟨i1, -, i3, -⟩ := nExecOk_inv (g0 := 0) (g1 := 1) hst rfl [.fwdNoise] _ hI.2.1 (by simp [NOp.isRead]) s₁ hs
  have hr : s₁.rng = 1 := by simpa [NOp.isRead] using i3 hI.2.2.2
  simpa [NOp.isRead] using (c100_times_partial (qubitN L) hst s₁ _ _ _ i1.opt i1.xp i1.core.amps _ 2 (by rw [hr]; rfl)
    [4, 5, 6] [.derivNoise] (by simp [NOp.isRead]) s hs').2

/-- `c100_draws` applies: two pulses, two reads of the generator. -/
example (L : Lapack (Fin 2)) : ∃ s, nExecOk (qubitN L) (session [([[1, 2], [3, 4], [5, 6]], [.fwdNoise, .revNoise]),
      ([[0, 2], [3, 4], [5, 6]], [.derivNoise, .propsNoise, .fwd])]) (nConstruct (qubitN L) [1, 2, 3] 0) = some s ∧ s.rng = 2 := by
  have hst : Stable (qubitN L).base := Or.inl ⟨rfl, rfl⟩
  have hy : (nConstruct (qubitN L) [1, 2, 3] 0).core.optPars ≠ some [[1, 2], [3, 4], [5, 6]] := by
    simp [nConstruct, construct, setTimes, reset]
  have ho : ∀ op ∈ [NOp.fwdNoise, .revNoise], op.isRead = true ∨ op = .set [[1, 2], [3, 4], [5, 6]] := by simp [NOp.isRead]
  have ho' : ∀ op ∈ [NOp.derivNoise, .propsNoise, .fwd], op.isRead = true ∨ op = .set [[0, 2], [3, 4], [5, 6]] := by
    simp [NOp.isRead]
  have ha := qubitN_accepts L (nConstruct (qubitN L) [1, 2, 3] 0) rfl [[1, 2], [3, 4], [5, 6]] rfl (by simp)
  obtain ⟨s1, hs1⟩ := c100_total (qubitN L) hst (nConstruct (qubitN L) [1, 2, 3] 0) _ _ _ hy ha _ 1 rfl
    (qubitN_computable L 0 _ rfl (by simp)) _ ho
  obtain ⟨-, e2, -, -⟩ := nSet_inv hy ha ⟨1, 2, 3, fun _ k t => 100 * (0 : ℕ) + 10 * k + t⟩ 1
  have hrng : s1.rng = 1 := (c100_realisation_partial (qubitN L) hst (nConstruct (qubitN L) [1, 2, 3] 0) _ _ _ hy ha _ 1 rfl _ ho
    s1 hs1).2.1
  have hset : nSet (qubitN L) [[1, 2], [3, 4], [5, 6]] (nConstruct (qubitN L) [1, 2, 3] 0) =
      (none, (nSet (qubitN L) [[1, 2], [3, 4], [5, 6]] (nConstruct (qubitN L) [1, 2, 3] 0)).2) :=
    Prod.ext (nSet_inv hy ha ⟨1, 2, 3, fun _ k t => 100 * (0 : ℕ) + 10 * k + t⟩ 1).1 rfl
  have hs1' : nExecOk (qubitN L) [NOp.fwdNoise, .revNoise]
      (nSet (qubitN L) [[1, 2], [3, 4], [5, 6]] (nConstruct (qubitN L) [1, 2, 3] 0)).2 = some s1 := by
    rw [nExecOk, show nRun (qubitN L) (.set [[1, 2], [3, 4], [5, 6]]) (nConstruct (qubitN L) [1, 2, 3] 0) = _ from hset] at hs1
    exact hs1
  obtain ⟨i1, i2, -⟩ := nExecOk_inv (g0 := 0) (g1 := 1) hst rfl _ _ e2 ho s1 hs1'
  have ht1 : s1.core.times = [1, 2, 3] := i2.trans (nSet_inv hy ha ⟨1, 2, 3, fun _ k t => 100 * (0 : ℕ) + 10 * k + t⟩ 1).2.2.1
  have hy1 : s1.core.optPars ≠ some [[0, 2], [3, 4], [5, 6]] := by rw [i1.opt]; simp
  obtain ⟨s, hs⟩ := c100_total (qubitN L) hst s1 _ _ _ hy1
    (qubitN_accepts L s1 (by rw [ht1]; rfl) [[0, 2], [3, 4], [5, 6]] rfl (by simp)) _ 2 (by rw [hrng]; rfl)
    (by rw [ht1]; exact qubitN_computable L 1 _ rfl (by simp)) _ ho'
  have hall : nExecOk (qubitN L) (session [([[1, 2], [3, 4], [5, 6]], [.fwdNoise, .revNoise]),
      ([[0, 2], [3, 4], [5, 6]], [.derivNoise, .propsNoise, .fwd])]) (nConstruct (qubitN L) [1, 2, 3] 0) = some s := by
    rw [show session [([[1, 2], [3, 4], [5, 6]], [NOp.fwdNoise, .revNoise]), ([[0, 2], [3, 4], [5, 6]],
      [NOp.derivNoise, .propsNoise, .fwd])] = [.set [[1, 2], [3, 4], [5, 6]], .fwdNoise, .revNoise] ++
      [.set [[0, 2], [3, 4], [5, 6]], .derivNoise, .propsNoise, .fwd] from rfl, nExecOk_append, hs1]
    exact hs
  refine ⟨s, hall, ?_⟩
  have hf : Fresh (nConstruct (qubitN L) [1, 2, 3] 0).core.optPars [([[1, 2], [3, 4], [5, 6]], [NOp.fwdNoise, .revNoise]),
      ([[0, 2], [3, 4], [5, 6]], [NOp.derivNoise, .propsNoise, .fwd])] := ⟨hy, by simp, trivial⟩
  exact c100_draws (qubitN L) hst _ _ hf (by
    intro b hb
    simp only [List.mem_cons, List.not_mem_nil, or_false] at hb
    rcases hb with rfl | rfl
    · exact ⟨ho, rfl⟩
    · exact ⟨ho', rfl⟩) s hall

end
end Verif.Solver
