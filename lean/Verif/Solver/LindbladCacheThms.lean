import Verif.Solver.LindbladCache
import Verif.Solver.LindbladThms

/-!
# C99: histories of a Lindblad solver
-/

namespace Verif.Solver
open Verif Verif.Operator Matrix
open scoped Kronecker

section
variable {n : Type} [Fintype n] [DecidableEq n]

/-- Specification: the generators and directions of the pulse can be computed. -/
structure Computable (c : LCfg n) (times : List ℝ) (u x : Pulse) (g : List (Sup n)) (D : List (List (Sup n))) : Prop where
  gens : c.gens times u x = .ok g
  dirs : lindDirs c.ctrl c.diss times u x = .ok D

/-- Derivative functions are only given together with the function they belong to. -/
def Diss.Paired (d : Diss n) : Prop := d.hasFuncs = false → d.prefactorDeriv = none ∧ d.supOpDeriv = none

/-- The caches of the dissipation hold nothing but the values for the current pulse. -/
structure Side (c : LCfg n) (u x : Pulse) (s : LSt n) : Prop where
  gen : s.smallGen = none
  prop : s.smallProp = none
  rev : s.smallRev = none
  xPars : s.core.xPars = some x
  amps : s.core.amps = some u
  sup : ∀ d, s.dissSup = some d → (calcDiss c.diss s.core.times u x).1 = .ok d
  init : s.dissSup = none → s.initial = c.diss.initial
  funcs : c.diss.hasFuncs = true → s.initial = c.diss.initial
  deriv : ∀ l, s.dissDeriv = some l → calcDissDeriv c.diss u x = .ok (some l)

theorem lindDirs_eq (ctrl : List (Matrix n n ℂ)) (d : Diss n) (times : List ℝ) (u x : Pulse) :
    lindDirs ctrl d times u x =
      if ctrl.length = 0 then .error .indexError else (calcDissDeriv d u x).map (dirsFrom ctrl times) := by
  unfold lindDirs
  congr 1
  cases calcDissDeriv d u x with
  | error e => rfl
  | ok dd => cases dd <;> rfl

/-- Which list `_calc_diss_sup_op` leaves behind. -/
theorem calcDiss_initial (d : Diss n) (times : List ℝ) (u x : Pulse) (h : d.hasFuncs = true) :
    (calcDiss d times u x).2 = d.initial := by
  unfold Diss.hasFuncs at h
  unfold calcDiss
  cases hs : d.supOp with
  | some f => rfl
  | none =>
    rw [hs] at h
    cases hp : d.prefactor with
    | none => simp [hp] at h
    | some f => cases constDiss d <;> rfl

theorem calcDissDeriv_initial (c : LCfg n) (hpd : c.diss.Paired) (i : Option (List (Sup n))) (u x : Pulse)
    (h : c.diss.hasFuncs = true → i = c.diss.initial) :
    calcDissDeriv { c.diss with initial := i } u x = calcDissDeriv c.diss u x := by
  cases hf : c.diss.hasFuncs with
  | true => rw [h hf]
  | false =>
    obtain ⟨h1, h2⟩ := hpd hf
    simp [calcDissDeriv, h1, h2]

/-- The cached or calculated dissipation is the one of the current pulse. -/
theorem lDiss_spec {c : LCfg n} {u x : Pulse} {s : LSt n} (h : Side c u x s) {d : List (Sup n)}
    (hd : (calcDiss c.diss s.core.times u x).1 = .ok d) :
    ∃ i, lDiss c u s = (.ok d, { s with initial := i, dissSup := some d }) ∧
      (c.diss.hasFuncs = true → i = c.diss.initial) := by
  unfold lDiss
  cases hs : s.dissSup with
  | some d' =>
    have := h.sup d' hs
    rw [hd] at this
    simp only [Except.ok.injEq] at this
    subst this
    refine ⟨s.initial, ?_, h.funcs⟩
    obtain ⟨_, _, _, _, _, _, _⟩ := s
    simp only at hs
    subst hs
    rfl
  | none =>
    have hi := h.init hs
    have he : ({ c.diss with initial := s.initial } : Diss n) = c.diss := by rw [hi]
    simp only [he, h.xPars, Option.getD_some]
    have hinit := calcDiss_initial c.diss s.core.times u x
    cases hc : calcDiss c.diss s.core.times u x with
    | mk a i =>
      rw [hc] at hd hinit
      simp only at hd
      subst hd
      exact ⟨i, rfl, hinit⟩

/-- Computing the generators. -/
theorem lGens_spec {c : LCfg n} {u x : Pulse} {s : LSt n} (h : Side c u x s) {g : List (Sup n)}
    (hg : c.gens s.core.times u x = .ok g) :
    ∃ s', lGens c u s = (none, s') ∧ Side c u x s' ∧ s'.core = { s.core with dynGen := some g } := by
  unfold LPar.gens at hg
  cases hd : (calcDiss c.diss s.core.times u x).1 with
  | error e => rw [hd] at hg; simp [bind, Except.bind] at hg
  | ok d =>
    rw [hd] at hg
    simp only [bind, Except.bind] at hg
    obtain ⟨i, hi, hf⟩ := lDiss_spec h hd
    have hl : lDiss c u { s with smallGen := some (schroedGens c.drift c.ctrl u) } =
        (.ok d, { s with smallGen := some (schroedGens c.drift c.ctrl u), initial := i, dissSup := some d }) := by
      unfold lDiss at hi ⊢
      simp only at hi ⊢
      cases hs : s.dissSup with
      | some d' =>
        rw [hs] at hi
        simp only [Prod.mk.injEq, Except.ok.injEq] at hi ⊢
        obtain ⟨h1, h2⟩ := hi
        refine ⟨h1, ?_⟩
        have e1 : s.initial = i := congrArg LSt.initial h2
        rw [← e1, ← h1, ← hs]
      | none =>
        rw [hs] at hi
        simp only at hi
        cases hc : calcDiss { c.diss with initial := s.initial } s.core.times u (s.core.xPars.getD []) with
        | mk a j =>
          rw [hc] at hi
          cases a with
          | error e => simp at hi
          | ok l =>
            simp only [Prod.mk.injEq, Except.ok.injEq] at hi ⊢
            obtain ⟨h1, h2⟩ := hi
            have e1 : j = i := congrArg LSt.initial h2
            exact ⟨h1, by rw [e1, h1]⟩
    refine ⟨{ s with smallGen := none, initial := i, dissSup := some d, core := { s.core with dynGen := some g } },
      by rw [lGens, hl]; simp only [hg], ?_, rfl⟩
    exact ⟨rfl, h.prop, h.rev, h.xPars, h.amps, fun d' hd' => by simp only [Option.some.injEq] at hd'; rw [← hd']; exact hd,
      fun hn => by simp at hn, hf, h.deriv⟩

/-- Computing the directions. -/
theorem lDirs_spec {c : LCfg n} (hpd : c.diss.Paired) {u x : Pulse} {s : LSt n} (h : Side c u x s) {D : List (List (Sup n))}
    (hD : lindDirs c.ctrl c.diss s.core.times u x = .ok D) :
    ∃ s', lDirs c u s = (.ok D, s') ∧ Side c u x s' ∧ s'.core = s.core := by
  rw [lindDirs_eq] at hD
  have h0 : ¬ c.ctrl.length = 0 := by
    intro h0
    simp [h0] at hD
  rw [if_neg h0] at hD
  unfold lDirs
  rw [if_neg h0]
  cases hs : s.dissDeriv with
  | some l =>
    rw [h.deriv l hs] at hD
    simp only [Except.map, Except.ok.injEq] at hD
    exact ⟨s, by simp only [hD], h, rfl⟩
  | none =>
    simp only [h.xPars, Option.getD_some, calcDissDeriv_initial c hpd s.initial u x h.funcs]
    cases hc : calcDissDeriv c.diss u x with
    | error e => rw [hc] at hD; simp [Except.map] at hD
    | ok dd =>
      rw [hc] at hD
      simp only [Except.map, Except.ok.injEq] at hD
      refine ⟨{ s with dissDeriv := dd }, by simp only [hD], ⟨h.gen, h.prop, h.rev, h.xPars, h.amps, h.sup, h.init, h.funcs, ?_⟩, rfl⟩
      intro l hl
      rw [hc, ← hl]

/-- Changing the attributes of the parent class other than times, amplitudes and parameters. -/
theorem Side.core {c : LCfg n} {u x : Pulse} {s : LSt n} (h : Side c u x s) (k : St (n × n) (n × n))
    (h1 : k.xPars = s.core.xPars) (h2 : k.amps = s.core.amps) (h3 : k.times = s.core.times) :
    Side c u x { s with core := k } :=
  ⟨h.gen, h.prop, h.rev, h1.trans h.xPars, h2.trans h.amps, fun d hd => by simpa only [h3] using h.sup d hd, h.init, h.funcs,
    h.deriv⟩

/-! ## The reads are those of the parent class -/

/-- The result of a method is the one of the parent class with the right generators and directions. -/
def Sim {α β : Type} (c : LCfg n) (u x : Pulse) (f : α → β) (l : β × LSt n) (r : α × St (n × n) (n × n)) : Prop :=
  l.1 = f r.1 ∧ l.2.core = r.2 ∧ Side c u x l.2

/-- Attributes left alone by a computation of the parent class. -/
def Keeps {n m : Type} (s s' : St n m) : Prop := s'.xPars = s.xPars ∧ s'.amps = s.amps ∧ s'.times = s.times

theorem keeps_computePropagation {n m : Type} [Fintype n] [DecidableEq n] (cfg : Cfg n m) (wd : Bool) (s : St n m) :
    Keeps s (computePropagation cfg wd s).2 := by
  unfold Keeps computePropagation
  cases h : s.amps <;> cases wd <;> simp [h]

theorem lPropagate_sim {c : LCfg n} (hpd : c.diss.Paired) {u x : Pulse} {s : LSt n} (h : Side c u x s) {g : List (Sup n)}
    {D : List (List (Sup n))} (hD : lindDirs c.ctrl c.diss s.core.times u x = .ok D) (hg : s.core.dynGen = some g) (wd : Bool) :
    Sim c u x id (lPropagate c wd u s) (computePropagation (c.at g D) wd s.core) := by
  unfold lPropagate
  cases wd with
  | false =>
    rw [if_neg (by simp)]
    simp only [hg, Option.getD_some]
    have e : computePropagation (c.at g []) false s.core = computePropagation (c.at g D) false s.core := by
      simp only [computePropagation, Bool.false_eq_true, if_false]
      rfl
    rw [e]
    obtain ⟨k1, k2, k3⟩ := keeps_computePropagation (c.at g D) false s.core
    exact ⟨rfl, rfl, h.core _ k1 k2 k3⟩
  | true =>
    rw [if_pos rfl]
    have h1 : Side c u x { s with core := { s.core with prop := some (s.core.times.map fun _ => none) } } :=
      h.core _ rfl rfl rfl
    obtain ⟨s', e1, e2, e3⟩ := lDirs_spec hpd h1 hD
    rw [e1]
    have hgs : s'.core.dynGen.getD [] = g := by rw [e3]; simp [hg]
    simp only [hgs]
    have e : computePropagation (c.at g D) true s'.core = computePropagation (c.at g D) true s.core := by
      rw [e3]
      simp only [computePropagation, h.amps, if_true]
    rw [e]
    obtain ⟨k1, k2, k3⟩ := keeps_computePropagation (c.at g D) true s.core
    refine ⟨rfl, rfl, e2.core _ ?_ ?_ ?_⟩
    · rw [k1, e3]
    · rw [k2, e3]
    · rw [k3, e3]

theorem lCompute_sim {c : LCfg n} (hpd : c.diss.Paired) {u x : Pulse} {s : LSt n} (h : Side c u x s) {g : List (Sup n)}
    {D : List (List (Sup n))} (hc : Computable c s.core.times u x g D) (hI : Inv (c.at g D) u s.core) (wd : Bool) :
    Sim c u x id (lCompute c wd s) (computePropagation (c.at g D) wd s.core) := by
  unfold lCompute
  simp only [h.amps, h.gen]
  cases hd : s.core.dynGen with
  | some g' =>
    have : g' = g := hI.dyn g' hd
    subst this
    exact lPropagate_sim hpd h hc.dirs hd wd
  | none =>
    simp only
    obtain ⟨s', e1, e2, e3⟩ := lGens_spec h hc.gens
    rw [e1]
    simp only
    have hs := lPropagate_sim hpd e2 (g := g) (D := D) (by rw [e3]; exact hc.dirs) (by rw [e3]) wd
    have e : computePropagation (c.at g D) wd s'.core = computePropagation (c.at g D) wd s.core := by
      rw [e3]
      unfold computePropagation
      simp only [h.amps, hd, Option.getD_some, Option.getD_none]
      rfl
    rw [e] at hs
    exact hs

theorem lEnsureProp_sim {c : LCfg n} (hpd : c.diss.Paired) {u x : Pulse} {s : LSt n} (h : Side c u x s) {g : List (Sup n)}
    {D : List (List (Sup n))} (hc : Computable c s.core.times u x g D) (hI : Inv (c.at g D) u s.core) (wd : Bool) :
    Sim c u x id (lEnsureProp c wd s) (ensureProp (c.at g D) wd s.core) := by
  unfold lEnsureProp ensureProp
  rw [h.prop]
  cases hp : s.core.prop with
  | none => exact lCompute_sim hpd h hc hI wd
  | some p => exact ⟨rfl, rfl, h⟩

theorem readProps_eq {n m : Type} [Fintype n] [DecidableEq n] (cfg : Cfg n m) (s : St n m) :
    readProps cfg s = match ensureProp cfg cfg.calcDeriv s with
      | (some e, s) => (.error e, s)
      | (none, s) => (.ok (s.prop.getD []), s) := by
  unfold readProps ensureProp
  cases hp : s.prop with
  | some p => simp [hp]
  | none => rfl

theorem lReadProps_sim {c : LCfg n} (hpd : c.diss.Paired) {u x : Pulse} {s : LSt n} (h : Side c u x s) {g : List (Sup n)}
    {D : List (List (Sup n))} (hc : Computable c s.core.times u x g D) (hI : Inv (c.at g D) u s.core) :
    Sim c u x (Except.map Sum.inr) (lReadProps c s) (readProps (c.at g D) s.core) := by
  have hs := lEnsureProp_sim hpd h hc hI c.calcDeriv
  unfold lReadProps
  rw [readProps_eq, show (c.at g D).calcDeriv = c.calcDeriv from rfl]
  obtain ⟨h1, h2, h3⟩ := hs
  generalize lEnsureProp c c.calcDeriv s = l at *
  generalize ensureProp (c.at g D) c.calcDeriv s.core = r at *
  obtain ⟨e, k⟩ := r
  obtain ⟨e', s'⟩ := l
  simp only [id] at h1 h2 h3
  subst h1 h2
  cases e' with
  | some e => exact ⟨rfl, rfl, h3⟩
  | none => exact ⟨by simp [lPropVal, h3.prop, Except.map], rfl, h3⟩

theorem ensureProp_prop {n m : Type} [Fintype n] [DecidableEq n] (cfg : Cfg n m) (wd : Bool) (s : St n m)
    (h : (ensureProp cfg wd s).1 = none) : ∃ p, (ensureProp cfg wd s).2.prop = some p := by
  unfold ensureProp at *
  cases hp : s.prop with
  | some p => exact ⟨p, hp⟩
  | none =>
    rw [hp] at h
    simp only at h ⊢
    unfold computePropagation at *
    cases ha : s.amps with
    | none => rw [ha] at h; simp at h
    | some u => cases wd <;> exact ⟨_, rfl⟩

theorem lReadFwd_sim {c : LCfg n} (hpd : c.diss.Paired) {u x : Pulse} {s : LSt n} (h : Side c u x s) {g : List (Sup n)}
    {D : List (List (Sup n))} (hc : Computable c s.core.times u x g D) (hI : Inv (c.at g D) u s.core) :
    Sim c u x id (lReadFwd c s) (readFwd (c.at g D) s.core) := by
  unfold lReadFwd readFwd
  cases hf : s.core.fwd with
  | some p => exact ⟨rfl, rfl, h⟩
  | none =>
    have hs := lEnsureProp_sim hpd h hc hI c.calcDeriv
    have hp := ensureProp_prop (c.at g D) c.calcDeriv s.core
    unfold computeFwd
    rw [show (c.at g D).calcDeriv = c.calcDeriv from rfl]
    obtain ⟨h1, h2, h3⟩ := hs
    generalize lEnsureProp c c.calcDeriv s = l at *
    generalize ensureProp (c.at g D) c.calcDeriv s.core = r at *
    obtain ⟨e, k⟩ := r
    obtain ⟨e', s'⟩ := l
    simp only [id] at h1 h2 h3
    subst h1 h2
    cases e' with
    | some e => exact ⟨rfl, rfl, h3⟩
    | none =>
      obtain ⟨p, hp⟩ := hp rfl
      simp only at hp
      simp only [h3.prop, ensureProp, hp, Option.getD_some]
      rw [show (c.at (s'.core.dynGen.getD []) []).init = c.init from rfl, show (c.at g D).init = c.init from rfl]
      cases hw : (fwdLoop p c.init).2 with
      | some e => exact ⟨rfl, rfl, h3.gen, rfl, h3.rev, h3.xPars, h3.amps, h3.sup, h3.init, h3.funcs, h3.deriv⟩
      | none => exact ⟨rfl, rfl, h3.gen, rfl, h3.rev, h3.xPars, h3.amps, h3.sup, h3.init, h3.funcs, h3.deriv⟩

theorem lReadRev_sim {c : LCfg n} (hpd : c.diss.Paired) {u x : Pulse} {s : LSt n} (h : Side c u x s) {g : List (Sup n)}
    {D : List (List (Sup n))} (hc : Computable c s.core.times u x g D) (hI : Inv (c.at g D) u s.core) :
    Sim c u x (Except.map Sum.inr) (lReadRev c s) (readRev (c.at g D) s.core) := by
  unfold lReadRev readRev
  rw [h.rev]
  cases hf : s.core.rev with
  | some p => exact ⟨rfl, rfl, h⟩
  | none =>
    have hs := lEnsureProp_sim hpd h hc hI c.calcDeriv
    have hp := ensureProp_prop (c.at g D) c.calcDeriv s.core
    unfold computeRev
    rw [show (c.at g D).calcDeriv = c.calcDeriv from rfl]
    obtain ⟨h1, h2, h3⟩ := hs
    simp only
    generalize lEnsureProp c c.calcDeriv s = l at *
    generalize ensureProp (c.at g D) c.calcDeriv s.core = r at *
    obtain ⟨e, k⟩ := r
    obtain ⟨e', s'⟩ := l
    simp only [id] at h1 h2 h3
    subst h1 h2
    cases e' with
    | some e => exact ⟨rfl, rfl, h3⟩
    | none =>
      obtain ⟨p, hp⟩ := hp rfl
      simp only at hp
      simp only [h3.prop, ensureProp, hp, Option.getD_some]
      cases p with
      | nil => exact ⟨rfl, rfl, h3.gen, rfl, h3.rev, h3.xPars, h3.amps, h3.sup, h3.init, h3.funcs, h3.deriv⟩
      | cons o ps =>
        cases o with
        | none => exact ⟨rfl, rfl, h3.gen, rfl, h3.rev, h3.xPars, h3.amps, h3.sup, h3.init, h3.funcs, h3.deriv⟩
        | some P =>
          simp only
          cases hw : (revLoop (some P :: ps).reverse (1 : Sup n)).2 with
          | some e => exact ⟨rfl, rfl, h3.gen, rfl, h3.rev, h3.xPars, h3.amps, h3.sup, h3.init, h3.funcs, h3.deriv⟩
          | none => exact ⟨rfl, rfl, h3.gen, rfl, h3.rev, h3.xPars, h3.amps, h3.sup, h3.init, h3.funcs, h3.deriv⟩

theorem lReadDeriv_sim {c : LCfg n} (hpd : c.diss.Paired) {u x : Pulse} {s : LSt n} (h : Side c u x s) {g : List (Sup n)}
    {D : List (List (Sup n))} (hc : Computable c s.core.times u x g D) (hI : Inv (c.at g D) u s.core) :
    Sim c u x id (lReadDeriv c s) (readDeriv (c.at g D) s.core) := by
  unfold lReadDeriv readDeriv
  cases hf : s.core.deriv with
  | some p => exact ⟨rfl, rfl, h⟩
  | none =>
    simp only
    have key : Sim c u x id (lComputeDeriv c s) (computeDeriv (c.at g D) s.core) := by
      unfold lComputeDeriv computeDeriv
      rw [show (c.at g D).approx = c.approx from rfl]
      cases ha : c.approx with
      | none => exact lCompute_sim hpd h hc hI true
      | other => exact ⟨rfl, rfl, h⟩
      | grape =>
        simp only
        have hs := lEnsureProp_sim hpd h hc hI false
        have hp := ensureProp_prop (c.at g D) false s.core
        have ht : (ensureProp (c.at g D) false s.core).2.times = s.core.times := (frame_ensureProp _ _ _).2.1
        obtain ⟨h1, h2, h3⟩ := hs
        generalize lEnsureProp c false s = l at *
        generalize ensureProp (c.at g D) false s.core = r at *
        obtain ⟨e, k⟩ := r
        obtain ⟨e', s'⟩ := l
        simp only [id] at h1 h2 h3 ht
        subst h1 h2
        cases e' with
        | some e => exact ⟨rfl, rfl, h3⟩
        | none =>
          obtain ⟨p, hp⟩ := hp rfl
          have h4 : Side c u x { s' with core := { s'.core with
              deriv := some (s'.core.times.map fun _ => c.ctrl.map fun _ => none) } } := h3.core _ rfl rfl rfl
          obtain ⟨s2, e1, e2, e3⟩ := lDirs_spec hpd h4 (D := D) (by simp only [ht]; exact hc.dirs)
          simp only at hp
          have ha' : s'.core.amps.getD [] = u := by rw [h3.amps]; rfl
          simp only [ha']
          simp only at e1
          rw [e1]
          simp only [e2.prop, e3, computeDeriv, show ∀ g, (c.at g D).approx = .grape from fun _ => ha, ensureProp, hp,
            h3.amps, Option.getD_some]
          have hx := e2.xPars
          have hs := e2.sup
          rw [e3] at hx hs
          exact ⟨rfl, rfl, e2.gen, rfl, e2.rev, hx, rfl, hs, e2.init, e2.funcs, e2.deriv⟩
    obtain ⟨h1, h2, h3⟩ := key
    generalize lComputeDeriv c s = l at *
    generalize computeDeriv (c.at g D) s.core = r at *
    obtain ⟨e, k⟩ := r
    obtain ⟨e', s'⟩ := l
    simp only [id] at h1 h2 h3
    subst h1 h2
    cases e' with
    | some e => exact ⟨rfl, rfl, h3⟩
    | none => exact ⟨rfl, rfl, h3⟩

/-! ## Setting pulses and grids -/

/-- Specification: the pulse `y` is accepted on the grid `τ`; it leads to the parameters `x` and the amplitudes `u`. -/
def Accepts (c : LCfg n) (τ : List ℝ) (y x u : Pulse) : Prop :=
  c.tf τ y = .ok x ∧ ampsOf (c.at [] []) τ y = some u

/-- The part of the invariant that survives exceptions: what is kept between pulses does not depend on the pulse. -/
structure DissInv (c : LCfg n) (s : LSt n) : Prop where
  funcs : c.diss.hasFuncs = true → s.initial = c.diss.initial
  const : c.diss.hasFuncs = false → s.dissDeriv = none ∧ (s.dissSup = none → s.initial = c.diss.initial) ∧
    ∀ d, s.dissSup = some d → ∀ u x, (calcDiss c.diss s.core.times u x).1 = .ok d

theorem DissInv.congr {c : LCfg n} {s s' : LSt n} (h : DissInv c s) (h1 : s'.initial = s.initial) (h2 : s'.dissSup = s.dissSup)
    (h3 : s'.dissDeriv = s.dissDeriv) (h4 : s'.core.times = s.core.times) : DissInv c s' :=
  ⟨fun hf => h1.trans (h.funcs hf), fun hf => by rw [h1, h2, h3, h4]; exact h.const hf⟩

/-- Without functions the dissipation depends on the number of time steps only. -/
theorem calcDiss_const (d : Diss n) (h : d.hasFuncs = false) (times times' : List ℝ) (ht : times.length = times'.length)
    (u x u' x' : Pulse) : calcDiss d times u x = calcDiss d times' u' x' := by
  simp only [Diss.hasFuncs, Bool.or_eq_false_iff, Option.isSome_eq_false_iff, Option.isNone_iff_eq_none] at h
  simp only [calcDiss, h.1, h.2, ht]

theorem calcDiss_error_initial (d : Diss n) (times : List ℝ) (u x : Pulse) (e : PyErr) (h : (calcDiss d times u x).1 = .error e) :
    (calcDiss d times u x).2 = d.initial := by
  unfold calcDiss at *
  cases hs : d.supOp with
  | some f => rfl
  | none =>
    rw [hs] at h
    cases hc : constDiss d with
    | error e => rfl
    | ok s =>
      rw [hc] at h
      cases hp : d.prefactor with
      | some f => rfl
      | none =>
        rw [hp] at h
        cases s with
        | nil => rfl
        | cons S r => simp at h

theorem dissInv_lDiss {c : LCfg n} {s : LSt n} (h : DissInv c s) (u : Pulse) : DissInv c (lDiss c u s).2 := by
  unfold lDiss
  cases hs : s.dissSup with
  | some d => exact h
  | none =>
    simp only
    cases hf : c.diss.hasFuncs with
    | true =>
      have hi := h.funcs hf
      have he : ({ c.diss with initial := s.initial } : Diss n) = c.diss := by rw [hi]
      rw [he]
      have := calcDiss_initial c.diss s.core.times u (s.core.xPars.getD []) hf
      cases hc : calcDiss c.diss s.core.times u (s.core.xPars.getD []) with
      | mk a i =>
        rw [hc] at this
        cases a with
        | error e => exact ⟨fun _ => this, fun h => by simp [hf] at h⟩
        | ok l => exact ⟨fun _ => this, fun h => by simp [hf] at h⟩
    | false =>
      obtain ⟨h1, h2, -⟩ := h.const hf
      have hi := h2 hs
      have he : ({ c.diss with initial := s.initial } : Diss n) = c.diss := by rw [hi]
      rw [he]
      have herr := calcDiss_error_initial c.diss s.core.times u (s.core.xPars.getD [])
      cases hc : calcDiss c.diss s.core.times u (s.core.xPars.getD []) with
      | mk a i =>
        rw [hc] at herr
        cases a with
        | error e =>
          have hk : keptDiss c.diss u (s.core.xPars.getD []) = none := by
            simp only [Diss.hasFuncs, Bool.or_eq_false_iff, Option.isSome_eq_false_iff, Option.isNone_iff_eq_none] at hf
            simp [keptDiss, hf.1]
          exact ⟨fun h => by simp [hf] at h, fun _ => ⟨h1, fun _ => herr e rfl, fun d hd => by simp [hk] at hd⟩⟩
        | ok l =>
          refine ⟨fun h => by simp [hf] at h, fun _ => ⟨h1, fun hn => by simp at hn, fun d hd u' x' => ?_⟩⟩
          simp only [Option.some.injEq] at hd
          subst hd
          rw [calcDiss_const c.diss hf _ s.core.times rfl u' x' u (s.core.xPars.getD []), hc]

theorem dissInv_lDirs {c : LCfg n} (hpd : c.diss.Paired) {s : LSt n} (h : DissInv c s) (u : Pulse) :
    DissInv c (lDirs c u s).2 := by
  unfold lDirs
  by_cases h0 : c.ctrl.length = 0
  · rw [if_pos h0]; exact h
  rw [if_neg h0]
  cases hs : s.dissDeriv with
  | some d => exact h
  | none =>
    simp only
    cases hc : calcDissDeriv { c.diss with initial := s.initial } u (s.core.xPars.getD []) with
    | error e => exact h
    | ok dd =>
      refine ⟨h.funcs, fun hf => ⟨?_, (h.const hf).2⟩⟩
      obtain ⟨h1, h2⟩ := hpd hf
      simp only [calcDissDeriv, h1, h2, Except.ok.injEq] at hc
      exact hc.symm

theorem lDiss_core (c : LCfg n) (u : Pulse) (s : LSt n) : (lDiss c u s).2.core = s.core := by
  unfold lDiss
  cases s.dissSup with
  | some d => rfl
  | none =>
    simp only
    cases calcDiss { c.diss with initial := s.initial } s.core.times u (s.core.xPars.getD []) with
    | mk a i => cases a <;> rfl

theorem lDirs_core (c : LCfg n) (u : Pulse) (s : LSt n) : (lDirs c u s).2.core = s.core := by
  unfold lDirs
  by_cases h0 : c.ctrl.length = 0
  · rw [if_pos h0]
  rw [if_neg h0]
  cases s.dissDeriv with
  | some d => rfl
  | none =>
    simp only
    cases calcDissDeriv { c.diss with initial := s.initial } u (s.core.xPars.getD []) <;> rfl

/-- A computation keeps the grid, the pulse and the invariant of the dissipation. -/
def Pres (c : LCfg n) (s s' : LSt n) : Prop :=
  s'.core.tau = s.core.tau ∧ s'.core.times = s.core.times ∧ s'.core.optPars = s.core.optPars ∧ (DissInv c s → DissInv c s')

theorem Pres.refl (c : LCfg n) (s : LSt n) : Pres c s s := ⟨rfl, rfl, rfl, id⟩

theorem Pres.trans {c : LCfg n} {s s' s'' : LSt n} (h : Pres c s s') (h' : Pres c s' s'') : Pres c s s'' :=
  ⟨h'.1.trans h.1, h'.2.1.trans h.2.1, h'.2.2.1.trans h.2.2.1, fun a => h'.2.2.2 (h.2.2.2 a)⟩

theorem Pres.core {c : LCfg n} {s : LSt n} {k : St (n × n) (n × n)} (h1 : k.tau = s.core.tau) (h2 : k.times = s.core.times)
    (h3 : k.optPars = s.core.optPars) : Pres c s { s with core := k } :=
  ⟨h1, h2, h3, fun h => h.congr rfl rfl rfl h2⟩

theorem pres_lDirs {c : LCfg n} (hpd : c.diss.Paired) (u : Pulse) (s : LSt n) : Pres c s (lDirs c u s).2 := by
  have := lDirs_core c u s
  exact ⟨by rw [this], by rw [this], by rw [this], fun h => dissInv_lDirs hpd h u⟩

theorem pres_lGens (c : LCfg n) (u : Pulse) (s : LSt n) : Pres c s (lGens c u s).2 := by
  unfold lGens
  have hp : Pres c s (lDiss c u { s with smallGen := some (schroedGens c.drift c.ctrl u) }).2 := by
    have := lDiss_core c u { s with smallGen := some (schroedGens c.drift c.ctrl u) }
    exact ⟨by rw [this], by rw [this], by rw [this],
      fun h => dissInv_lDiss (h.congr (s' := { s with smallGen := some (schroedGens c.drift c.ctrl u) }) rfl rfl rfl rfl) u⟩
  generalize lDiss c u { s with smallGen := some (schroedGens c.drift c.ctrl u) } = r at *
  obtain ⟨a, s'⟩ := r
  cases a with
  | error e => exact hp
  | ok d =>
    simp only at hp ⊢
    cases lindGens c.drift c.ctrl u d with
    | error e => exact hp
    | ok g =>
      refine hp.trans ⟨rfl, rfl, rfl, fun h => h.congr rfl rfl rfl rfl⟩

theorem pres_lPropagate {c : LCfg n} (hpd : c.diss.Paired) (wd : Bool) (u : Pulse) (s : LSt n) :
    Pres c s (lPropagate c wd u s).2 := by
  unfold lPropagate
  cases wd with
  | false =>
    rw [if_neg (by simp)]
    obtain ⟨f1, f2, f3, -⟩ := frame_computePropagation (c.at (s.core.dynGen.getD []) []) false s.core
    exact Pres.core f1 f2 f3
  | true =>
    rw [if_pos rfl]
    have hp : Pres c s (lDirs c u { s with core := { s.core with prop := some (s.core.times.map fun _ => none) } }).2 :=
      (Pres.core (k := { s.core with prop := some (s.core.times.map fun _ => none) }) rfl rfl rfl).trans (pres_lDirs hpd u _)
    generalize lDirs c u { s with core := { s.core with prop := some (s.core.times.map fun _ => none) } } = r at *
    obtain ⟨a, s'⟩ := r
    cases a with
    | error e => exact hp
    | ok D =>
      obtain ⟨f1, f2, f3, -⟩ := frame_computePropagation (c.at (s'.core.dynGen.getD []) D) true s'.core
      exact hp.trans (Pres.core f1 f2 f3)

theorem pres_lPropagateSmall {c : LCfg n} (hpd : c.diss.Paired) (wd : Bool) (u : Pulse) (G : List (Matrix n n ℂ)) (s : LSt n) :
    Pres c s (lPropagateSmall c wd u G s).2 := by
  unfold lPropagateSmall
  cases wd with
  | false =>
    rw [if_neg (by simp)]
    exact ⟨rfl, rfl, rfl, fun h => h.congr rfl rfl rfl rfl⟩
  | true =>
    rw [if_pos rfl]
    have hp : Pres c s (lDirs c u { s with core := { s.core with prop := some (s.core.times.map fun _ => none) } }).2 :=
      (Pres.core (k := { s.core with prop := some (s.core.times.map fun _ => none) }) rfl rfl rfl).trans (pres_lDirs hpd u _)
    generalize lDirs c u { s with core := { s.core with prop := some (s.core.times.map fun _ => none) } } = r at *
    obtain ⟨a, s'⟩ := r
    cases a with
    | error e => exact hp
    | ok D =>
      have hq : Pres c s { s' with core := { s'.core with deriv := some (c.ctrl.map fun _ => s'.core.times.map fun _ => none) } } :=
        hp.trans (Pres.core rfl rfl rfl)
      simp only
      split <;> exact hq

theorem pres_lCompute {c : LCfg n} (hpd : c.diss.Paired) (wd : Bool) (s : LSt n) : Pres c s (lCompute c wd s).2 := by
  unfold lCompute
  split
  · exact Pres.refl c s
  · rename_i u _
    split
    · exact pres_lPropagateSmall hpd wd u _ s
    · exact pres_lPropagate hpd wd u s
    · have hp := pres_lGens c u s
      generalize lGens c u s = r at *
      obtain ⟨a, s'⟩ := r
      cases a with
      | some e => exact hp
      | none => exact hp.trans (pres_lPropagate hpd wd u s')

theorem pres_lEnsureProp {c : LCfg n} (hpd : c.diss.Paired) (wd : Bool) (s : LSt n) : Pres c s (lEnsureProp c wd s).2 := by
  unfold lEnsureProp
  split
  · exact pres_lCompute hpd wd s
  · exact Pres.refl c s

theorem pres_lReadProps {c : LCfg n} (hpd : c.diss.Paired) (s : LSt n) : Pres c s (lReadProps c s).2 := by
  unfold lReadProps
  have hp := pres_lEnsureProp hpd c.calcDeriv s
  generalize lEnsureProp c c.calcDeriv s = r at *
  obtain ⟨a, s'⟩ := r
  cases a <;> exact hp

theorem pres_lReadFwd {c : LCfg n} (hpd : c.diss.Paired) (s : LSt n) : Pres c s (lReadFwd c s).2 := by
  unfold lReadFwd
  have hp := pres_lEnsureProp hpd c.calcDeriv s
  split
  · exact Pres.refl c s
  · generalize lEnsureProp c c.calcDeriv s = r at *
    obtain ⟨a, s'⟩ := r
    cases a with
    | some e => exact hp
    | none =>
      simp only at hp ⊢
      split
      · obtain ⟨f1, f2, f3, -⟩ := frame_computeFwd (c.at (s'.core.dynGen.getD []) []) s'.core
        exact hp.trans (Pres.core f1 f2 f3)
      · have hq : Pres c s { s' with core := { s'.core with fwd := some [c.init] } } := hp.trans (Pres.core rfl rfl rfl)
        split <;> exact hq

theorem pres_lReadRev {c : LCfg n} (hpd : c.diss.Paired) (s : LSt n) : Pres c s (lReadRev c s).2 := by
  unfold lReadRev
  have hp := pres_lEnsureProp hpd c.calcDeriv s
  split
  · exact Pres.refl c s
  · exact Pres.refl c s
  · generalize lEnsureProp c c.calcDeriv s = r at *
    obtain ⟨a, s'⟩ := r
    cases a with
    | some e => exact hp
    | none =>
      simp only at hp ⊢
      split
      · obtain ⟨f1, f2, f3, -⟩ := frame_computeRev (c.at (s'.core.dynGen.getD []) []) s'.core
        exact hp.trans (Pres.core f1 f2 f3)
      · exact hp
      · exact hp
      · exact hp.trans ⟨rfl, rfl, rfl, fun h => h.congr rfl rfl rfl rfl⟩

theorem pres_lReadDeriv {c : LCfg n} (hpd : c.diss.Paired) (s : LSt n) : Pres c s (lReadDeriv c s).2 := by
  have key : Pres c s (lComputeDeriv c s).2 := by
    unfold lComputeDeriv
    split
    · exact pres_lCompute hpd true s
    · have hp := pres_lEnsureProp hpd false s
      generalize lEnsureProp c false s = r at *
      obtain ⟨a, s'⟩ := r
      cases a with
      | some e => exact hp
      | none =>
        simp only at hp ⊢
        have hq := hp.trans ((Pres.core (c := c) (s := s') (k := { s'.core with
          deriv := some (s'.core.times.map fun _ => c.ctrl.map fun _ => none) }) rfl rfl rfl).trans
          (pres_lDirs hpd (s'.core.amps.getD []) _))
        generalize lDirs c (s'.core.amps.getD []) { s' with core := { s'.core with
          deriv := some (s'.core.times.map fun _ => c.ctrl.map fun _ => none) } } = r at *
        obtain ⟨a, s2⟩ := r
        cases a with
        | error e => exact hq
        | ok D =>
          simp only at hq ⊢
          split
          · obtain ⟨f1, f2, f3, -⟩ := frame_computeDeriv (c.at (s2.core.dynGen.getD []) D) s2.core
            exact hq.trans (Pres.core f1 f2 f3)
          · split <;> exact hq
    · exact Pres.refl c s
  unfold lReadDeriv
  split
  · exact Pres.refl c s
  · generalize lComputeDeriv c s = r at *
    obtain ⟨a, s'⟩ := r
    cases a <;> exact key

theorem dissInv_reset {c : LCfg n} {s : LSt n} (h : DissInv c s) (k : St (n × n) (n × n))
    (hk : k.times.length = s.core.times.length) : DissInv c { lReset c s with core := k } := by
  refine ⟨h.funcs, fun hf => ?_⟩
  obtain ⟨h1, h2, h3⟩ := h.const hf
  simp only [lReset, hf, Bool.false_eq_true, if_false]
  exact ⟨h1, h2, fun d hd u x => by rw [calcDiss_const c.diss hf _ s.core.times hk u x u x]; exact h3 d hd u x⟩

/-- Invariant of all histories on grids with the same number of steps. -/
theorem exec_inv (c : LCfg n) (hpd : c.diss.Paired) (N : Nat) (ops : List Op)
    (hops : ∀ op ∈ ops, ∀ τ, op = .times τ → (c.xTimes τ).length = N) (s : LSt n) (h1 : s.core.times = c.xTimes s.core.tau)
    (h2 : s.core.times.length = N) (h3 : DissInv c s) :
    (lExec c ops s).core.times = c.xTimes (lExec c ops s).core.tau ∧ (lExec c ops s).core.times.length = N ∧
      DissInv c (lExec c ops s) := by
  induction ops generalizing s with
  | nil => exact ⟨h1, h2, h3⟩
  | cons op ops ih =>
    have hread : ∀ s', Pres c s s' → s'.core.times = c.xTimes s'.core.tau ∧ s'.core.times.length = N ∧ DissInv c s' :=
      fun s' hp => ⟨by rw [hp.1, hp.2.1, h1], by rw [hp.2.1, h2], hp.2.2.2 h3⟩
    have key : (lRun c op s).2.core.times = c.xTimes (lRun c op s).2.core.tau ∧ (lRun c op s).2.core.times.length = N ∧
        DissInv c (lRun c op s).2 := by
      cases op with
      | props => exact hread _ (pres_lReadProps hpd s)
      | fwd => exact hread _ (pres_lReadFwd hpd s)
      | rev => exact hread _ (pres_lReadRev hpd s)
      | deriv => exact hread _ (pres_lReadDeriv hpd s)
      | times τ =>
        have hN := hops _ (List.mem_cons_self ..) τ rfl
        exact ⟨rfl, hN, dissInv_reset h3 _ (by rw [h2]; exact hN)⟩
      | set y =>
        simp only [lRun, lSetPars]
        by_cases hy : s.core.optPars = some y
        · rw [if_pos hy]; exact ⟨h1, h2, h3⟩
        · rw [if_neg hy]
          obtain ⟨a, b⟩ := frame_setPars (c.at [] []) y s.core
          exact ⟨by simp only [a, b, h1], by simp only [b, h2], dissInv_reset h3 _ (by rw [b])⟩
    exact ih (fun op hop => hops op (by simp [hop])) _ key.1 key.2.1 key.2.2

/-- Setting an accepted pulse different from the last one tried. -/
theorem lSetPars_new {c : LCfg n} {s : LSt n} (h : DissInv c s) (ht : s.core.times = c.xTimes s.core.tau) {y x u : Pulse}
    (hy : s.core.optPars ≠ some y) (ha : Accepts c s.core.tau y x u) (g : List (Sup n)) (D : List (List (Sup n))) :
    (lSetPars c y s).1 = none ∧ Side c u x (lSetPars c y s).2 ∧ Inv (c.at g D) u (lSetPars c y s).2.core ∧
      (lSetPars c y s).2.core.times = s.core.times ∧ (lSetPars c y s).2.core.tau = s.core.tau ∧
      (lSetPars c y s).2.core.optPars = some y := by
  obtain ⟨htf, hau⟩ := ha
  obtain ⟨a, b, d, e, f, -⟩ := setPars_new (c.at g D) y s.core hy ht
  have hI := f u hau
  have hx : (setPars (c.at g D) y s.core).2.xPars = some x := by
    have hn := a.mpr ⟨u, hau⟩
    unfold setPars at hn ⊢
    rw [if_neg hy] at hn ⊢
    simp only [reset, show (c.at g D).tf s.core.tau y = .ok x from htf] at hn ⊢
    cases hq : (c.at g D).amp x with
    | error e => rw [hq] at hn
    | ok r =>
      rw [hq] at hn
      simp only at hn ⊢
      cases hk : checkAmps s.core.times.length (c.at g D).nCtrl r with
      | none => rfl
      | some e => rw [hk] at hn
  have hset : lSetPars c y s = ((setPars (c.at g D) y s.core).1, { lReset c s with core := (setPars (c.at g D) y s.core).2 }) := by
    unfold lSetPars
    rw [if_neg hy]
    rfl
  rw [hset]
  refine ⟨a.mpr ⟨u, hau⟩, ⟨rfl, rfl, rfl, hx, hI.amps, ?_, ?_, h.funcs, ?_⟩, hI, d, b, e⟩
  · intro dd hd
    simp only [lReset] at hd
    cases hf : c.diss.hasFuncs with
    | true => simp [hf] at hd
    | false =>
      simp only [hf, Bool.false_eq_true, if_false] at hd
      simp only [d]
      exact (h.const hf).2.2 dd hd u x
  · intro hd
    simp only [lReset] at hd
    cases hf : c.diss.hasFuncs with
    | true => exact h.funcs hf
    | false =>
      simp only [hf, Bool.false_eq_true, if_false] at hd
      exact (h.const hf).2.1 hd
  · intro l hl
    simp only [lReset] at hl
    cases hf : c.diss.hasFuncs with
    | true => simp [hf] at hl
    | false =>
      simp only [hf, Bool.false_eq_true, if_false] at hl
      rw [(h.const hf).1] at hl
      simp at hl

theorem dissInv_construct (c : LCfg n) (τ : List ℝ) : DissInv c (lConstruct c τ) :=
  ⟨fun _ => rfl, fun _ => ⟨rfl, fun _ => rfl, fun d hd => by simp [lConstruct] at hd⟩⟩

theorem lFresh_inv {c : LCfg n} {τ : List ℝ} {y x u : Pulse} (ha : Accepts c τ y x u) (g : List (Sup n)) (D : List (List (Sup n))) :
    Side c u x (lFresh c τ y) ∧ Inv (c.at g D) u (lFresh c τ y).core ∧ (lFresh c τ y).core.times = c.xTimes τ := by
  obtain ⟨-, h1, h2, h3, -⟩ := lSetPars_new (dissInv_construct c τ) rfl (y := y) (x := x) (u := u)
    (by simp [lConstruct, construct, setTimes, reset]) ha g D
  exact ⟨h1, h2, h3⟩

/-- Two states with the invariant for the same pulse and grid give the same reads. -/
theorem lSameReads {c : LCfg n} (hpd : c.diss.Paired) {u x : Pulse} {g : List (Sup n)} {D : List (List (Sup n))}
    (hst : Stable (c.at g D)) {s s' : LSt n} (h : Side c u x s) (h' : Side c u x s') (hI : Inv (c.at g D) u s.core)
    (hI' : Inv (c.at g D) u s'.core) (ht : s.core.times = s'.core.times) (hc : Computable c s.core.times u x g D) :
    LSameReads c s s' := by
  obtain ⟨r1, r2, r3, r4⟩ := hI.sameReads hst hI' ht
  have hc' : Computable c s'.core.times u x g D := ht ▸ hc
  exact ⟨by rw [(lReadProps_sim hpd h hc hI).1, (lReadProps_sim hpd h' hc' hI').1, r1],
    by rw [(lReadFwd_sim hpd h hc hI).1, (lReadFwd_sim hpd h' hc' hI').1, r2],
    by rw [(lReadRev_sim hpd h hc hI).1, (lReadRev_sim hpd h' hc' hI').1, r3],
    by rw [(lReadDeriv_sim hpd h hc hI).1, (lReadDeriv_sim hpd h' hc' hI').1, r4]⟩

/-! ## C99 -/

/-- **C99** (partial: pulses whose dissipation can be computed, grids with the same number of steps) After any history, in which
calls may have raised, the results of a newly set pulse are those of a new solver on the current grid. -/
theorem c99_new_pulse_partial (c : LCfg n) (hpd : c.diss.Paired) (τ : List ℝ) (ops : List Op)
    (hops : ∀ op ∈ ops, ∀ τ', op = .times τ' → (c.xTimes τ').length = (c.xTimes τ).length) (y x u : Pulse)
    (hy : (lExec c ops (lConstruct c τ)).core.optPars ≠ some y)
    (ha : Accepts c (lExec c ops (lConstruct c τ)).core.tau y x u) (g : List (Sup n)) (D : List (List (Sup n)))
    (hc : Computable c (c.xTimes (lExec c ops (lConstruct c τ)).core.tau) u x g D) (hst : Stable (c.at g D)) :
    (lSetPars c y (lExec c ops (lConstruct c τ))).1 = none ∧
    LSameReads c (lSetPars c y (lExec c ops (lConstruct c τ))).2 (lFresh c (lExec c ops (lConstruct c τ)).core.tau y) := by
  obtain ⟨e1, -, e3⟩ := exec_inv c hpd _ ops hops (lConstruct c τ) rfl rfl (dissInv_construct c τ)
  obtain ⟨h1, h2, h3, h4, -⟩ := lSetPars_new e3 e1 hy ha g D
  obtain ⟨f1, f2, f3⟩ := lFresh_inv ha g D
  exact ⟨h1, lSameReads hpd hst h2 f1 h3 f2 (by rw [h4, f3, e1]) (by rw [h4, e1]; exact hc)⟩

/-- Without amplitudes every read raises. -/
theorem lUnset_raises (c : LCfg n) (s : LSt n) (ha : s.core.amps = none) (hp : s.core.prop = none) (hf : s.core.fwd = none)
    (hr : s.core.rev = none) (hd : s.core.deriv = none) (h1 : s.smallProp = none) (h2 : s.smallRev = none) :
    (lReadProps c s).1 = .error .valueError ∧ (lReadFwd c s).1 = .error .valueError ∧
    (lReadRev c s).1 = .error .valueError ∧ (lReadDeriv c s).1 = .error .valueError := by
  refine ⟨?_, ?_, ?_, ?_⟩
  · simp [lReadProps, lEnsureProp, hp, h1, lCompute, ha]
  · simp [lReadFwd, lEnsureProp, hf, hp, h1, lCompute, ha]
  · simp [lReadRev, lEnsureProp, hr, h2, hp, h1, lCompute, ha]
  · cases h : c.approx <;> simp [lReadDeriv, lComputeDeriv, lEnsureProp, hd, hp, h1, lCompute, ha, h]

omit [Fintype n] [DecidableEq n] in
theorem lRun_none {α : Type} {x : Except PyErr α × LSt n} {s' : LSt n} (h : lOutcome x = (none, s')) :
    (∃ v, x.1 = .ok v) ∧ x.2 = s' := by
  obtain ⟨r, s⟩ := x
  cases r with
  | ok v => simp only [lOutcome, Prod.mk.injEq, true_and] at h; exact ⟨⟨v, rfl⟩, h⟩
  | error e => simp [lOutcome] at h

/-- Invariant of histories without exceptions on a fixed grid. -/
def LTracked (c : LCfg n) (τ : List ℝ) (oy : Option Pulse) (s : LSt n) : Prop :=
  s.core.tau = τ ∧ s.core.times = c.xTimes τ ∧ s.core.optPars = oy ∧ DissInv c s ∧
    match oy with
    | none => s.core.amps = none ∧ s.core.prop = none ∧ s.core.fwd = none ∧ s.core.rev = none ∧ s.core.deriv = none ∧
        s.smallProp = none ∧ s.smallRev = none
    | some y => ∃ x u, Accepts c τ y x u ∧ Side c u x s ∧
        ∀ g D, Computable c (c.xTimes τ) u x g D → Inv (c.at g D) u s.core

theorem lTracked_step {c : LCfg n} (hpd : c.diss.Paired) {τ : List ℝ}
    (hc : ∀ y x u, Accepts c τ y x u → ∃ g D, Computable c (c.xTimes τ) u x g D ∧ Stable (c.at g D))
    {oy : Option Pulse} {s s' : LSt n}
    (h : LTracked c τ oy s) (op : Op) (hop : ∀ τ', op ≠ .times τ') (hrun : lRun c op s = (none, s')) :
    LTracked c τ (lastPulse [op] oy) s' := by
  obtain ⟨h1, h2, h3, h4, h5⟩ := h
  have hread : ∀ (α β : Type) (f : Except PyErr α → Except PyErr β) (rd : LSt n → Except PyErr β × LSt n)
      (rd' : Cfg (n × n) (n × n) → St (n × n) (n × n) → Except PyErr α × St (n × n) (n × n))
      (spec : Cfg (n × n) (n × n) → List ℝ → Pulse → Except PyErr α),
      (∀ e, f (.error e) = .error e) →
      (∀ u x g D, Side c u x s → Computable c s.core.times u x g D → Inv (c.at g D) u s.core →
        Sim c u x f (rd s) (rd' (c.at g D) s.core)) →
      (∀ cfg u s, Stable cfg → Inv cfg u s → ReadOk cfg u s (rd' cfg s) (spec cfg s.times u)) →
      (s.core.amps = none → s.core.prop = none → s.core.fwd = none → s.core.rev = none → s.core.deriv = none →
        s.smallProp = none → s.smallRev = none → (rd s).1 = .error .valueError) →
      Pres c s (rd s).2 → (∃ v, (rd s).1 = .ok v) → LTracked c τ oy (rd s).2 := by
    intro α β f rd rd' spec hfe hsim hok hun hpr hv
    refine ⟨hpr.1.trans h1, hpr.2.1.trans h2, hpr.2.2.1.trans h3, hpr.2.2.2 h4, ?_⟩
    cases oy with
    | none =>
      obtain ⟨v, hv⟩ := hv
      rw [hun h5.1 h5.2.1 h5.2.2.1 h5.2.2.2.1 h5.2.2.2.2.1 h5.2.2.2.2.2.1 h5.2.2.2.2.2.2] at hv
      simp at hv
    | some y =>
      obtain ⟨x, u, hacc, hS, hI⟩ := h5
      obtain ⟨g, D, hgD, hst⟩ := hc y x u hacc
      have hs := hsim u x g D hS (h2 ▸ hgD) (hI g D hgD)
      have hr := hok (c.at g D) u s.core hst (hI g D hgD)
      refine ⟨x, u, hacc, hs.2.2, fun g' D' hgD' => ?_⟩
      have eg : g' = g := by have := hgD'.gens.symm.trans hgD.gens; simpa using this
      have eD : D' = D := by have := hgD'.dirs.symm.trans hgD.dirs; simpa using this
      subst eg eD
      rw [hs.2.1]
      refine (hr.2 ?_).1
      obtain ⟨v, hv⟩ := hv
      rw [hs.1] at hv
      cases hq : (rd' (c.at g' D') s.core).1 with
      | ok w => exact ⟨w, rfl⟩
      | error e => rw [hq, hfe] at hv; simp at hv
  cases op with
  | times τ' => exact absurd rfl (hop τ')
  | props =>
    obtain ⟨hv, rfl⟩ := lRun_none hrun
    exact hread _ _ (Except.map Sum.inr) (lReadProps c) readProps specProps (fun _ => rfl)
      (fun u x g D a b d => lReadProps_sim hpd a b d) (fun cfg u s a b => readProps_ok a b)
      (fun a b c' d e f g => (lUnset_raises c s a b c' d e f g).1) (pres_lReadProps hpd s) hv
  | fwd =>
    obtain ⟨hv, rfl⟩ := lRun_none hrun
    exact hread _ _ id (lReadFwd c) readFwd specFwd (fun _ => rfl)
      (fun u x g D a b d => lReadFwd_sim hpd a b d) (fun cfg u s a b => readFwd_ok a b)
      (fun a b c' d e f g => (lUnset_raises c s a b c' d e f g).2.1) (pres_lReadFwd hpd s) hv
  | rev =>
    obtain ⟨hv, rfl⟩ := lRun_none hrun
    exact hread _ _ (Except.map Sum.inr) (lReadRev c) readRev specRev (fun _ => rfl)
      (fun u x g D a b d => lReadRev_sim hpd a b d) (fun cfg u s a b => readRev_ok a b)
      (fun a b c' d e f g => (lUnset_raises c s a b c' d e f g).2.2.1) (pres_lReadRev hpd s) hv
  | deriv =>
    obtain ⟨hv, rfl⟩ := lRun_none hrun
    exact hread _ _ id (lReadDeriv c) readDeriv specDeriv (fun _ => rfl)
      (fun u x g D a b d => lReadDeriv_sim hpd a b d) (fun cfg u s a b => readDeriv_ok a b)
      (fun a b c' d e f g => (lUnset_raises c s a b c' d e f g).2.2.2) (pres_lReadDeriv hpd s) hv
  | set y =>
    simp only [lRun] at hrun
    by_cases hy : s.core.optPars = some y
    · have : lSetPars c y s = (none, s) := by rw [lSetPars, if_pos hy]
      rw [this] at hrun
      simp only [Prod.mk.injEq, true_and] at hrun
      subst hrun
      rw [hy] at h3
      subst h3
      exact ⟨h1, h2, hy, h4, h5⟩
    · have hset : (lSetPars c y s).1 = (setPars (c.at [] []) y s.core).1 := by
        unfold lSetPars; rw [if_neg hy]
      have ht : s.core.times = c.xTimes s.core.tau := by rw [h2, h1]
      obtain ⟨a, -⟩ := setPars_new (c.at [] []) y s.core hy ht
      rw [← hset, hrun] at a
      obtain ⟨u, hu⟩ := a.mp rfl
      have hx : ∃ x, c.tf s.core.tau y = .ok x := by
        unfold ampsOf at hu
        cases htf : c.tf s.core.tau y with
        | ok x => exact ⟨x, rfl⟩
        | error e => rw [show (c.at [] []).tf s.core.tau y = .error e from htf] at hu; simp at hu
      obtain ⟨x, hx⟩ := hx
      have hnew := fun g D => lSetPars_new h4 ht hy ⟨hx, hu⟩ g D
      have hI := (exec_inv c hpd s.core.times.length [.set y] (by simp) s ht rfl h4).2.2
      simp only [lExec, List.foldl_cons, List.foldl_nil, lRun] at hI
      rw [hrun] at hnew hI
      refine ⟨(hnew [] []).2.2.2.2.1.trans h1, (hnew [] []).2.2.2.1.trans h2, (hnew [] []).2.2.2.2.2, hI, x, u, h1 ▸ ⟨hx, hu⟩,
        (hnew [] []).2.1, fun g D _ => (hnew g D).2.2.1⟩

/-- **C99** (partial: pulses whose dissipation can be computed) After any sequence of successful calls on a fixed grid the results
are those of a new solver with the pulse set last. -/
theorem c99_history_partial (c : LCfg n) (hpd : c.diss.Paired) (τ : List ℝ)
    (hc : ∀ y x u, Accepts c τ y x u → ∃ g D, Computable c (c.xTimes τ) u x g D ∧ Stable (c.at g D))
    (ops : List Op) (hops : ∀ op ∈ ops, ∀ τ', op ≠ .times τ') (s : LSt n) (hrun : lExecOk c ops (lConstruct c τ) = some s)
    (y : Pulse) (hy : lastPulse ops none = some y) : LSameReads c s (lFresh c τ y) := by
  have key : ∀ (ops : List Op) (_ : ∀ op ∈ ops, ∀ τ', op ≠ .times τ') (oy : Option Pulse) (s₀ : LSt n),
      LTracked c τ oy s₀ → lExecOk c ops s₀ = some s → LTracked c τ (lastPulse ops oy) s := by
    intro ops
    induction ops with
    | nil => intro _ oy s₀ h hr; simp only [lExecOk, Option.some.injEq] at hr; subst hr; exact h
    | cons op ops ih =>
      intro hops oy s₀ h hr
      simp only [lExecOk] at hr
      split at hr
      · rename_i s1 heq
        have h1 := lTracked_step hpd hc h op (hops op (by simp)) heq
        have h2 := ih (fun op hop => hops op (by simp [hop])) _ _ h1 hr
        cases op <;> exact h2
      · simp at hr
  have h := key ops hops none (lConstruct c τ)
    ⟨rfl, rfl, rfl, dissInv_construct c τ, rfl, rfl, rfl, rfl, rfl, rfl, rfl⟩ hrun
  rw [hy] at h
  obtain ⟨-, h2, -, -, x, u, hacc, hS, hI⟩ := h
  obtain ⟨g, D, hgD, hst⟩ := hc y x u hacc
  obtain ⟨f1, f2, f3⟩ := lFresh_inv hacc g D
  exact lSameReads hpd hst hS f1 (hI g D hgD) f2 (by rw [h2, f3]) (by rw [h2]; exact hgD)

/-- The values a new solver reports are those described by `LPar.props` and `LPar.fwd`, for which C37 to C41, C95 and C97 are
stated. -/
theorem c99_values (c : LCfg n) (hpd : c.diss.Paired) (hcd : c.calcDeriv = false) (τ : List ℝ) (y x u : Pulse)
    (ha : Accepts c τ y x u) (g : List (Sup n)) (D : List (List (Sup n))) (hc : Computable c (c.xTimes τ) u x g D)
    (hst : Stable (c.at g D)) :
    (lReadProps c (lFresh c τ y)).1 = (c.props (c.xTimes τ) u x).map Sum.inr ∧
    (lReadFwd c (lFresh c τ y)).1 = c.fwd (c.xTimes τ) u x := by
  obtain ⟨f1, f2, f3⟩ := lFresh_inv ha g D
  have hc' : Computable c (lFresh c τ y).core.times u x g D := by rw [f3]; exact hc
  have hcells : cells (c.at g D) (c.xTimes τ) u = fill none ((List.range (c.xTimes τ).length).map
      (stepPlain (c.base []) g (c.xTimes τ))) := by
    unfold cells
    rw [if_neg (by simp [LCfg.at, hcd])]
    rfl
  have hprops : c.props (c.xTimes τ) u x = specProps (c.at g D) (c.xTimes τ) u := by
    unfold LPar.props specProps
    rw [hc.gens, hcells]
    simp only [bind, Except.bind, traceRun, Bool.false_eq_true, if_false]
    cases (fill none ((List.range (c.xTimes τ).length).map (stepPlain (c.base []) g (c.xTimes τ)))).2 <;> rfl
  refine ⟨?_, ?_⟩
  · rw [(lReadProps_sim hpd f1 hc' f2).1, (readProps_ok hst f2).1, f3, hprops]
  · rw [(lReadFwd_sim hpd f1 hc' f2).1, (readFwd_ok hst f2).1, f3]
    unfold LPar.fwd
    rw [hprops]
    unfold specProps specFwd
    cases (cells (c.at g D) (c.xTimes τ) u).2 <;> rfl

/-! ## Violations -/

theorem lReadProps_small {c : LCfg n} (hcd : c.calcDeriv = false) (hm : c.method ≠ .other) (s : LSt n) (u : Pulse)
    (G : List (Matrix n n ℂ)) (ha : s.core.amps = some u) (hG : s.smallGen = some G) (h1 : s.smallProp = none)
    (h2 : s.core.prop = none) (hl : s.core.times.length ≤ G.length) :
    (lReadProps c s).1 = .ok (.inl ((List.range s.core.times.length).map fun t =>
      some (expProp c.small c.method c.skew (G.getD t 0) (s.core.times.getD t 0)))) := by
  unfold lReadProps lEnsureProp
  simp only [h1, h2, lCompute, ha, hG, lPropagateSmall, hcd, Bool.false_eq_true, if_false]
  rw [fill_map_ok _ _ _ (fun t => some (expProp c.small c.method c.skew (G.getD t 0) (s.core.times.getD t 0)))]
  · simp [lPropVal]
  · intro t ht
    have ht' := List.mem_range.mp ht
    have hG : t < G.length := by omega
    simp only [stepPlain, List.getElem?_eq_getElem hG, List.getElem?_eq_getElem ht', exp_expProp _ hm]
    simp [List.getD_eq_getElem?_getD, List.getElem?_eq_getElem hG, List.getElem?_eq_getElem ht', Except.map]

/-- **C99 is violated** after an exception, for every solver without dissipation arguments: the first read of the propagators
raises TypeError, the second one returns the `d × d` propagators of the Schroedinger equation, and setting the pulse again does
not change this. -/
theorem c99_violated (c : LCfg n) (hd : c.diss = ⟨none, none, none, none, none, none⟩) (hcd : c.calcDeriv = false)
    (hm : c.method ≠ .other) (τ : List ℝ) (hl : c.drift.length = (c.xTimes τ).length) (y x u : Pulse) (ha : Accepts c τ y x u) :
    (lReadProps c (lFresh c τ y)).1 = .error .typeError ∧
    (lReadProps c (lReadProps c (lFresh c τ y)).2).1 = .ok (.inl ((List.range (c.xTimes τ).length).map fun t =>
      some (expProp c.small c.method c.skew ((schroedGens c.drift c.ctrl u).getD t 0) ((c.xTimes τ).getD t 0)))) ∧
    lSetPars c y (lReadProps c (lFresh c τ y)).2 = (none, (lReadProps c (lFresh c τ y)).2) := by
  obtain ⟨hS, hI, ht⟩ := lFresh_inv ha ([] : List (Sup n)) []
  obtain ⟨-, -, -, -, -, hopt⟩ := lSetPars_new (dissInv_construct c τ) rfl (y := y) (x := x) (u := u)
    (by simp [lConstruct, construct, setTimes, reset]) ha ([] : List (Sup n)) []
  have hopt' : (lFresh c τ y).core.optPars = some y := hopt
  have hprop : (lFresh c τ y).core.prop = none ∧ (lFresh c τ y).core.dynGen = none ∧ (lFresh c τ y).dissSup = none := by
    unfold lFresh lSetPars
    rw [if_neg (by simp [lConstruct, construct, setTimes, reset])]
    unfold setPars
    rw [if_neg (by simp [lConstruct, construct, setTimes, reset])]
    refine ⟨?_, ?_, by simp [lReset, lConstruct]⟩ <;>
    · simp only
      split
      · rfl
      · split
        · rfl
        · split <;> rfl
  obtain ⟨hp1, hp2, hp3⟩ := hprop
  have hi : (lFresh c τ y).initial = none := by rw [hS.init hp3, hd]
  have hread : lReadProps c (lFresh c τ y) = (.error .typeError, { lFresh c τ y with
      smallGen := some (schroedGens c.drift c.ctrl u) }) := by
    unfold lReadProps lEnsureProp
    simp only [hS.prop, hp1, lCompute, hS.amps, hS.gen, hp2, lGens, lDiss, hp3, hi]
    simp only [calcDiss, constDiss, hd, keptDiss]
  rw [hread]
  refine ⟨rfl, ?_, ?_⟩
  · have := lReadProps_small hcd hm { lFresh c τ y with smallGen := some (schroedGens c.drift c.ctrl u) } u _ hS.amps rfl hS.prop hp1
      (by rw [schroedGens_length, hl]; simp only [ht]; exact le_refl _)
    rw [this]
    simp only [ht]
  · unfold lSetPars
    rw [if_pos hopt']

/-- **C99 is violated** by a change to a grid with fewer steps, for every solver with constant Lindblad operators and drift
operators for the first grid: the dissipation of the first grid stays in the cache, so that the propagators can be read, while
a new solver on the second grid raises AssertionError. -/
theorem c99_violated_grid (c : LCfg n) (A : Matrix n n ℂ) (As : List (Matrix n n ℂ))
    (hd : c.diss = ⟨none, some (A :: As), none, none, none, none⟩) (hcd : c.calcDeriv = false) (hm : c.method ≠ .other)
    (τ τ' : List ℝ) (hl : c.drift.length = (c.xTimes τ).length) (hl' : (c.xTimes τ').length < (c.xTimes τ).length)
    (y x u y' x' u' : Pulse) (hy : y ≠ y') (ha : Accepts c τ y x u) (ha' : Accepts c τ' y' x' u') :
    (∃ P : List (Sup n), P.length = (c.xTimes τ').length ∧
      (lReadProps c (lExec c [.set y, .props, .times τ', .set y'] (lConstruct c τ))).1 = .ok (.inr (P.map some))) ∧
    (lReadProps c (lFresh c τ' y')).1 = .error .assertionError := by
  have hf : c.diss.hasFuncs = false := by rw [hd]; rfl
  have hdiss : ∀ times u x, calcDiss c.diss times u x =
      (.ok (List.replicate times.length ((As.map dissOf).foldl (· + ·) (dissOf A))), none) := by
    intro times u x
    rw [hd]
    rfl
  have hg0 : ∀ u, schroedGens c.drift c.ctrl u ≠ [] := by
    intro u h
    have := congrArg List.length h
    rw [schroedGens_length, hl] at this
    simp only [List.length_nil] at this
    omega
  have hfresh : ∀ {τ y x u}, Accepts c τ y x u → (lFresh c τ y).core.prop = none ∧ (lFresh c τ y).core.dynGen = none ∧
      (lFresh c τ y).dissSup = none := by
    intro τ y x u ha
    unfold lFresh lSetPars
    rw [if_neg (by simp [lConstruct, construct, setTimes, reset])]
    unfold setPars
    rw [if_neg (by simp [lConstruct, construct, setTimes, reset])]
    refine ⟨?_, ?_, by simp [lReset, lConstruct]⟩ <;>
    · simp only
      split
      · rfl
      · split
        · rfl
        · split <;> rfl
  constructor
  · obtain ⟨hS, hI, ht⟩ := lFresh_inv ha ([] : List (Sup n)) []
    obtain ⟨hp1, hp2, hp3⟩ := hfresh ha
    -- the dissipation after the first read
    have hread : (lReadProps c (lFresh c τ y)).2.dissSup =
        some (List.replicate (c.xTimes τ).length ((As.map dissOf).foldl (· + ·) (dissOf A))) := by
      have h2 : (lReadProps c (lFresh c τ y)).2 = (lEnsureProp c c.calcDeriv (lFresh c τ y)).2 := by
        unfold lReadProps
        cases lEnsureProp c c.calcDeriv (lFresh c τ y) with
        | mk a b => cases a <;> rfl
      rw [h2]
      unfold lEnsureProp
      simp only [hS.prop, hp1, lCompute, hS.amps, hS.gen, hp2, lGens, lDiss, hp3]
      rw [hS.init hp3]
      have he : ({ c.diss with initial := c.diss.initial } : Diss n) = c.diss := rfl
      simp only [he, hdiss, lindGens, if_neg (hg0 u), hcd]
      rw [if_neg (by rw [schroedGens_length, hl, List.length_replicate, ht]; simp)]
      simp only [lPropagate, Bool.false_eq_true, if_false, ht]
    -- the state in which the second pulse is set
    have hex : lExec c [.set y, .props, .times τ', .set y'] (lConstruct c τ) =
        (lSetPars c y' (lSetTimes c τ' (lReadProps c (lFresh c τ y)).2)).2 := rfl
    rw [hex]
    generalize hs : lSetTimes c τ' (lReadProps c (lFresh c τ y)).2 = s
    have hsd : s.dissSup = some (List.replicate (c.xTimes τ).length ((As.map dissOf).foldl (· + ·) (dissOf A))) := by
      rw [← hs]
      simp only [lSetTimes, lReset, hf, Bool.false_eq_true, if_false, hread]
    have hso : s.core.optPars ≠ some y' := by
      have h3 := (pres_lReadProps (c := c) (fun _ => by rw [hd]; exact ⟨rfl, rfl⟩) (lFresh c τ y)).2.2.1
      obtain ⟨-, -, -, -, -, hopt⟩ := lSetPars_new (dissInv_construct c τ) rfl (y := y) (x := x) (u := u)
        (by simp [lConstruct, construct, setTimes, reset]) ha ([] : List (Sup n)) []
      have h4 : (lFresh c τ y).core.optPars = some y := hopt
      rw [← hs]
      simp only [lSetTimes, setTimes, reset, h3, h4, ne_eq, Option.some.injEq]
      exact hy
    have hst : s.core.tau = τ' ∧ s.core.times = c.xTimes τ' := by rw [← hs]; exact ⟨rfl, rfl⟩
    obtain ⟨htf, hau⟩ := ha'
    obtain ⟨a, b, d, e, f, -⟩ := setPars_new (c.at [] []) y' s.core hso (by rw [hst.1, hst.2]; rfl)
    have hI' := f u' (by rw [hst.1]; exact hau)
    have hset : lSetPars c y' s = ((setPars (c.at [] []) y' s.core).1,
        { lReset c s with core := (setPars (c.at [] []) y' s.core).2 }) := by
      unfold lSetPars
      rw [if_neg hso]
    rw [hset]
    have hclean : (setPars (c.at [] []) y' s.core).2.prop = none ∧ (setPars (c.at [] []) y' s.core).2.dynGen = none := by
      unfold setPars
      rw [if_neg hso]
      constructor <;>
      · simp only
        split
        · rfl
        · split
          · rfl
          · split <;> rfl
    generalize setPars (c.at [] []) y' s.core = r at d hI' hclean ⊢
    refine ⟨(List.range (c.xTimes τ').length).map fun t => expProp c.L c.method c.skew ((List.zipWith supGen (schroedGens c.drift c.ctrl u')
      (List.replicate (c.xTimes τ).length ((As.map dissOf).foldl (· + ·) (dissOf A)))).getD t 0) ((c.xTimes τ').getD t 0), by simp, ?_⟩
    unfold lReadProps lEnsureProp
    simp only [lReset, hclean.1, hclean.2, lCompute, hI'.amps, lGens, lDiss, hf, Bool.false_eq_true, if_false, hsd, lindGens,
      if_neg (hg0 u'), hcd]
    rw [if_neg (by rw [schroedGens_length, hl, List.length_replicate]; simp)]
    simp only [lPropagate, Bool.false_eq_true, if_false, computePropagation, hI'.amps, Option.getD_some, d, hst.2]
    rw [fill_map_ok _ _ _ (fun t => some (expProp c.L c.method c.skew ((List.zipWith supGen (schroedGens c.drift c.ctrl u')
      (List.replicate (c.xTimes τ).length ((As.map dissOf).foldl (· + ·) (dissOf A)))).getD t 0) ((c.xTimes τ').getD t 0)))]
    · simp [lPropVal]
    · intro t htt
      have ht' := List.mem_range.mp htt
      have hG : t < (List.zipWith supGen (schroedGens c.drift c.ctrl u')
        (List.replicate (c.xTimes τ).length ((As.map dissOf).foldl (· + ·) (dissOf A)))).length := by
        rw [List.length_zipWith, schroedGens_length, hl, List.length_replicate]; omega
      simp only [stepPlain, List.getElem?_eq_getElem hG, List.getElem?_eq_getElem ht', LCfg.at, LPar.base, exp_expProp _ hm]
      rw [List.getD_eq_getElem _ _ hG, List.getD_eq_getElem _ _ ht']
      rfl
  · obtain ⟨hS, hI, ht⟩ := lFresh_inv ha' ([] : List (Sup n)) []
    obtain ⟨hp1, hp2, hp3⟩ := hfresh ha'
    have hi : (lFresh c τ' y').initial = none := by rw [hS.init hp3, hd]
    unfold lReadProps lEnsureProp
    simp only [hS.prop, hp1, lCompute, hS.amps, hS.gen, hp2, lGens, lDiss, hp3]
    rw [hS.init hp3]
    have he : ({ c.diss with initial := c.diss.initial } : Diss n) = c.diss := rfl
    simp only [he, hdiss, lindGens, if_neg (hg0 u')]
    rw [if_pos (by rw [schroedGens_length, hl, List.length_replicate, ht]; omega)]

/-! ## Concrete cases -/

/-- The decaying qubit of `decayPar` as an object with the default transfer and amplitude functions. -/
noncomputable def decayCfg (L : Lapack (Fin 2 × Fin 2)) (S : Lapack (Fin 2)) (calcDeriv : Bool)
    (pre : Option (Pulse → Pulse → List (List ℝ))) (pre' : Option (Pulse → Pulse → List (List (List ℝ)))) : LCfg (Fin 2) :=
  { decayPar L pre pre' with small := S, calcDeriv := calcDeriv, approx := .none, tf := idTf, xTimes := id, amp := idAmp }

theorem decay_accepts {L : Lapack (Fin 2 × Fin 2)} {S : Lapack (Fin 2)} {cd : Bool} {pre pre'} (τ : List ℝ) (y : Pulse)
    (hy : y ≠ []) (hl : y.length = τ.length) (h : ∀ row ∈ y, row.length = 2) : Accepts (decayCfg L S cd pre pre') τ y y y := by
  obtain ⟨r, h1, h2, h3, h4⟩ := idAmp_ok y 2 hy h
  refine ⟨rfl, ?_⟩
  have := ampsOf_some ((decayCfg L S cd pre pre').at [] []) τ y y r rfl h1 h2 (by rw [h4, hl]; rfl) (by rw [h3]; rfl)
  rw [this, h4]

/-- Three steps: the generators and directions exist, with prefactors for the two operators. -/
theorem decay_computable {L : Lapack (Fin 2 × Fin 2)} {S : Lapack (Fin 2)} {cd : Bool} (τ : List ℝ) (u x : Pulse) :
    ∃ g D, Computable (decayCfg L S cd (some decayPre) (some decayPre')) τ u x g D ∧ (∀ Ds ∈ D, Ds ≠ []) ∧
      g.length = 3 := by
  have h1 : ∃ d, (calcDiss (decayCfg L S cd (some decayPre) (some decayPre')).diss τ u x).1 = .ok d ∧ d.length = 3 :=
    ⟨_, rfl, rfl⟩
  obtain ⟨d, hd, hl⟩ := h1
  have h2 : ∃ D, lindDirs (decayCfg L S cd (some decayPre) (some decayPre')).ctrl
      (decayCfg L S cd (some decayPre) (some decayPre')).diss τ u x = .ok D ∧ ∀ Ds ∈ D, Ds ≠ [] := by
    refine ⟨_, rfl, ?_⟩
    intro Ds hDs
    obtain ⟨row, hrow, rfl⟩ := List.mem_map.mp hDs
    simp only [List.mem_cons, List.not_mem_nil, or_false] at hrow
    rcases hrow with rfl | rfl | rfl <;> exact List.cons_ne_nil _ _
  obtain ⟨D, hD, hne⟩ := h2
  have h3 : (schroedGens (decayCfg L S cd (some decayPre) (some decayPre')).drift
      (decayCfg L S cd (some decayPre) (some decayPre')).ctrl u).length = 3 := by rw [schroedGens_length]; rfl
  refine ⟨List.zipWith supGen (schroedGens (decayCfg L S cd (some decayPre) (some decayPre')).drift
      (decayCfg L S cd (some decayPre) (some decayPre')).ctrl u) d, D, ⟨?_, hD⟩, hne, by rw [List.length_zipWith, h3, hl]; rfl⟩
  · unfold LPar.gens
    rw [hd]
    simp only [bind, Except.bind, lindGens]
    rw [if_neg (by intro h; rw [h] at h3; simp at h3), if_neg (by rw [h3, hl]; simp)]

/-- `c99_new_pulse_partial` applies: after reads, a rejected pulse and a change of the step lengths. -/
example (L : Lapack (Fin 2 × Fin 2)) (S : Lapack (Fin 2)) :
    LSameReads (decayCfg L S true (some decayPre) (some decayPre'))
      (lSetPars (decayCfg L S true (some decayPre) (some decayPre')) [[1, 2], [3, 4], [5, 6]]
        (lExec (decayCfg L S true (some decayPre) (some decayPre')) [.props, .set [[1, 1], [1, 1], [1, 1]], .deriv, .times [2, 2, 2], .fwd]
          (lConstruct (decayCfg L S true (some decayPre) (some decayPre')) [1, 2, 3]))).2
      (lFresh (decayCfg L S true (some decayPre) (some decayPre')) [2, 2, 2] [[1, 2], [3, 4], [5, 6]]) := by
  obtain ⟨g, D, hc, -, -⟩ := decay_computable (L := L) (S := S) (cd := true) [2, 2, 2] [[1, 2], [3, 4], [5, 6]] [[1, 2], [3, 4], [5, 6]]
  have hpd : (decayCfg L S true (some decayPre) (some decayPre')).diss.Paired := fun h => by
    simp [decayCfg, decayPar, Diss.hasFuncs] at h
  have hopt : ((lExec (decayCfg L S true (some decayPre) (some decayPre'))
      [.props, .set [[1, 1], [1, 1], [1, 1]], .deriv, .times [2, 2, 2], .fwd]
          (lConstruct (decayCfg L S true (some decayPre) (some decayPre')) [1, 2, 3])).core.optPars ≠ some [[1, 2], [3, 4], [5, 6]]) ∧
      (lExec (decayCfg L S true (some decayPre) (some decayPre'))
      [.props, .set [[1, 1], [1, 1], [1, 1]], .deriv, .times [2, 2, 2], .fwd]
          (lConstruct (decayCfg L S true (some decayPre) (some decayPre')) [1, 2, 3])).core.tau = [2, 2, 2] := by
    have e : ∀ s, lExec (decayCfg L S true (some decayPre) (some decayPre'))
        [.props, .set [[1, 1], [1, 1], [1, 1]], .deriv, .times [2, 2, 2], .fwd] s = 
        (lReadFwd (decayCfg L S true (some decayPre) (some decayPre')) (lSetTimes (decayCfg L S true (some decayPre) (some decayPre'))
          [2, 2, 2] (lReadDeriv (decayCfg L S true (some decayPre) (some decayPre'))
            (lSetPars (decayCfg L S true (some decayPre) (some decayPre')) [[1, 1], [1, 1], [1, 1]]
              (lReadProps (decayCfg L S true (some decayPre) (some decayPre')) s).2).2).2)).2 := fun _ => rfl
    rw [e, (pres_lReadFwd hpd _).2.2.1, (pres_lReadFwd hpd _).1]
    refine ⟨?_, rfl⟩
    have e2 : ∀ s, (lSetTimes (decayCfg L S true (some decayPre) (some decayPre')) [2, 2, 2] s).core.optPars = s.core.optPars :=
      fun _ => rfl
    rw [e2, (pres_lReadDeriv hpd _).2.2.1]
    have := (pres_lReadProps (c := decayCfg L S true (some decayPre) (some decayPre')) hpd
      (lConstruct (decayCfg L S true (some decayPre) (some decayPre')) [1, 2, 3]))
    obtain ⟨-, -, -, -, -, ho⟩ := lSetPars_new (this.2.2.2 (dissInv_construct _ _)) (by rw [this.2.1, this.1]; rfl)
      (y := [[1, 1], [1, 1], [1, 1]]) (by rw [this.2.2.1]; simp [lConstruct, construct, setTimes, reset])
      (decay_accepts _ _ (by simp) (by rw [this.1]; rfl) (by simp)) [] []
    rw [ho]
    simp
  have := c99_new_pulse_partial (decayCfg L S true (some decayPre) (some decayPre')) hpd [1, 2, 3]
    [.props, .set [[1, 1], [1, 1], [1, 1]], .deriv, .times [2, 2, 2], .fwd]
    (by
      intro op hop τ' h
      subst h
      simp at hop
      rw [hop]
      rfl) [[1, 2], [3, 4], [5, 6]] [[1, 2], [3, 4], [5, 6]] [[1, 2], [3, 4], [5, 6]] hopt.1
    (by rw [hopt.2]; exact decay_accepts _ _ (by simp) rfl (by simp)) g D (by rw [hopt.2]; exact hc) (Or.inl ⟨rfl, rfl⟩)
  rw [hopt.2] at this
  exact this.2

/-- `c99_values` applies. -/
example (L : Lapack (Fin 2 × Fin 2)) (S : Lapack (Fin 2)) :
    (lReadFwd (decayCfg L S false (some decayPre) (some decayPre'))
      (lFresh (decayCfg L S false (some decayPre) (some decayPre')) [1, 2, 3] [[1, 2], [3, 4], [5, 6]])).1 =
    (decayPar L (some decayPre) (some decayPre')).fwd [1, 2, 3] [[1, 2], [3, 4], [5, 6]] [[1, 2], [3, 4], [5, 6]] := by
  obtain ⟨g, D, hc, hne, -⟩ := decay_computable (L := L) (S := S) (cd := false) [1, 2, 3] [[1, 2], [3, 4], [5, 6]] [[1, 2], [3, 4], [5, 6]]
  exact (c99_values (decayCfg L S false (some decayPre) (some decayPre')) (fun h => by simp [decayCfg, decayPar, Diss.hasFuncs] at h)
    rfl [1, 2, 3] _ _ _ (decay_accepts _ _ (by simp) rfl (by simp)) g D hc
    (Or.inr (Or.inl ⟨rfl, Or.inr rfl, fun _ _ t Ds h => hne Ds (List.mem_of_getElem? h)⟩))).2

theorem lExecOk_cons {c : LCfg n} {op : Op} {s s' : LSt n} (h : lRun c op s = (none, s')) (ops : List Op) :
    lExecOk c (op :: ops) s = lExecOk c ops s' := by
  simp only [lExecOk, h]

/-- `c99_history_partial` applies: reading the propagation of a first pulse, then setting a second one. -/
example (L : Lapack (Fin 2 × Fin 2)) (S : Lapack (Fin 2)) : ∃ s,
    lExecOk (decayCfg L S false (some decayPre) (some decayPre')) [.set [[1, 2], [3, 4], [5, 6]], .fwd, .set [[0, 1], [1, 0], [0, 0]]]
      (lConstruct (decayCfg L S false (some decayPre) (some decayPre')) [1, 2, 3]) = some s ∧
    LSameReads (decayCfg L S false (some decayPre) (some decayPre')) s
      (lFresh (decayCfg L S false (some decayPre) (some decayPre')) [1, 2, 3] [[0, 1], [1, 0], [0, 0]]) := by
  have hpd : (decayCfg L S false (some decayPre) (some decayPre')).diss.Paired := fun h => by
    simp [decayCfg, decayPar, Diss.hasFuncs] at h
  have hstab : ∀ (g : List (Sup (Fin 2))) (D : List (List (Sup (Fin 2)))), (∀ Ds ∈ D, Ds ≠ []) →
      Stable ((decayCfg L S false (some decayPre) (some decayPre')).at g D) := fun g D hne =>
    Or.inr (Or.inl ⟨rfl, Or.inr rfl, fun _ _ t Ds h => hne Ds (List.mem_of_getElem? h)⟩)
  obtain ⟨g, D, hc, hne, hl⟩ := decay_computable (L := L) (S := S) (cd := false) [1, 2, 3] [[1, 2], [3, 4], [5, 6]] [[1, 2], [3, 4], [5, 6]]
  have ha : Accepts (decayCfg L S false (some decayPre) (some decayPre')) [1, 2, 3] [[1, 2], [3, 4], [5, 6]] [[1, 2], [3, 4], [5, 6]]
      [[1, 2], [3, 4], [5, 6]] := decay_accepts _ _ (by simp) rfl (by simp)
  have hv := (c99_values _ hpd rfl [1, 2, 3] _ _ _ ha g D hc (hstab g D hne)).2
  obtain ⟨ps, f, -, h2, -⟩ := (decayCfg L S false (some decayPre) (some decayPre')).run_ok (by simp [decayCfg, decayPar]) [1, 2, 3]
    [[1, 2], [3, 4], [5, 6]] [[1, 2], [3, 4], [5, 6]] g hc.gens hl
  rw [show (decayCfg L S false (some decayPre) (some decayPre')).xTimes [1, 2, 3] = [1, 2, 3] from rfl, h2] at hv
  have hs1 : lRun (decayCfg L S false (some decayPre) (some decayPre')) (.set [[1, 2], [3, 4], [5, 6]])
      (lConstruct (decayCfg L S false (some decayPre) (some decayPre')) [1, 2, 3]) =
      (none, lFresh (decayCfg L S false (some decayPre) (some decayPre')) [1, 2, 3] [[1, 2], [3, 4], [5, 6]]) :=
    Prod.ext (lSetPars_new (dissInv_construct _ _) rfl (by simp [lConstruct, construct, setTimes, reset]) ha [] []).1 rfl
  have hp := pres_lReadFwd hpd (lFresh (decayCfg L S false (some decayPre) (some decayPre')) [1, 2, 3] [[1, 2], [3, 4], [5, 6]])
  have hn := lSetPars_new (dissInv_construct (decayCfg L S false (some decayPre) (some decayPre')) [1, 2, 3]) rfl
    (by simp [lConstruct, construct, setTimes, reset]) ha [] []
  have hinv : DissInv (decayCfg L S false (some decayPre) (some decayPre'))
      (lFresh (decayCfg L S false (some decayPre) (some decayPre')) [1, 2, 3] [[1, 2], [3, 4], [5, 6]]) := by
    have := exec_inv _ hpd 3 [.set [[1, 2], [3, 4], [5, 6]]] (by simp) (lConstruct (decayCfg L S false (some decayPre) (some decayPre'))
      [1, 2, 3]) rfl rfl (dissInv_construct _ _)
    exact this.2.2
  have htt : (lFresh (decayCfg L S false (some decayPre) (some decayPre')) [1, 2, 3] [[1, 2], [3, 4], [5, 6]]).core.times =
      (decayCfg L S false (some decayPre) (some decayPre')).xTimes
      (lFresh (decayCfg L S false (some decayPre) (some decayPre')) [1, 2, 3] [[1, 2], [3, 4], [5, 6]]).core.tau :=
    hn.2.2.2.1.trans (congrArg (decayCfg L S false (some decayPre) (some decayPre')).xTimes hn.2.2.2.2.1.symm)
  have hs3 := lSetPars_new (hp.2.2.2 hinv) (by rw [hp.2.1, hp.1]; exact htt)
    (y := [[0, 1], [1, 0], [0, 0]]) (by rw [hp.2.2.1]; intro h; have := hn.2.2.2.2.2.symm.trans h; simp at this)
    (decay_accepts _ _ (by simp) (by rw [hp.1]; exact (congrArg List.length hn.2.2.2.2.1).symm) (by simp)) [] []
  have hx : lExecOk (decayCfg L S false (some decayPre) (some decayPre'))
      [.set [[1, 2], [3, 4], [5, 6]], .fwd, .set [[0, 1], [1, 0], [0, 0]]]
      (lConstruct (decayCfg L S false (some decayPre) (some decayPre')) [1, 2, 3]) =
      some (lSetPars (decayCfg L S false (some decayPre) (some decayPre')) [[0, 1], [1, 0], [0, 0]]
        (lReadFwd (decayCfg L S false (some decayPre) (some decayPre'))
          (lFresh (decayCfg L S false (some decayPre) (some decayPre')) [1, 2, 3] [[1, 2], [3, 4], [5, 6]])).2).2 := by
    have h2 : lRun (decayCfg L S false (some decayPre) (some decayPre')) .fwd
        (lFresh (decayCfg L S false (some decayPre) (some decayPre')) [1, 2, 3] [[1, 2], [3, 4], [5, 6]]) =
        (none, (lReadFwd (decayCfg L S false (some decayPre) (some decayPre'))
          (lFresh (decayCfg L S false (some decayPre) (some decayPre')) [1, 2, 3] [[1, 2], [3, 4], [5, 6]])).2) := by
      simp only [lRun, lOutcome, hv]
    have h3 := Prod.ext (x := lRun (decayCfg L S false (some decayPre) (some decayPre')) (.set [[0, 1], [1, 0], [0, 0]])
      (lReadFwd (decayCfg L S false (some decayPre) (some decayPre'))
          (lFresh (decayCfg L S false (some decayPre) (some decayPre')) [1, 2, 3] [[1, 2], [3, 4], [5, 6]])).2) (y := (none, _)) hs3.1 rfl
    exact (lExecOk_cons hs1 _).trans ((lExecOk_cons h2 _).trans (lExecOk_cons h3 _))
  refine ⟨_, hx, c99_history_partial _ hpd [1, 2, 3] (fun y x u _ => ?_) _ (by simp) _ hx _ rfl⟩
  obtain ⟨g, D, hc, hne, -⟩ := decay_computable (L := L) (S := S) (cd := false) [1, 2, 3] u x
  exact ⟨g, D, hc, hstab g D hne⟩

/-- `c99_violated_grid` applies: three steps, then two. -/
example (L : Lapack (Fin 2 × Fin 2)) (S : Lapack (Fin 2)) :
    (lReadProps (decayCfg L S false none none) (lFresh (decayCfg L S false none none) [1, 2] [[1, 2], [3, 4]])).1 =
      .error .assertionError ∧
    ∃ P : List (Sup (Fin 2)), P.length = 2 ∧ (lReadProps (decayCfg L S false none none)
      (lExec (decayCfg L S false none none) [.set [[1, 2], [3, 4], [5, 6]], .props, .times [1, 2], .set [[1, 2], [3, 4]]]
        (lConstruct (decayCfg L S false none none) [1, 2, 3]))).1 = .ok (.inr (P.map some)) := by
  obtain ⟨h1, h2⟩ := c99_violated_grid (decayCfg L S false none none) !![0, 1; 0, 0] [!![1, 0; 0, -1]] rfl rfl (by simp [decayCfg, decayPar])
    [1, 2, 3] [1, 2] rfl (by simp [decayCfg]) [[1, 2], [3, 4], [5, 6]] _ _ [[1, 2], [3, 4]] _ _ (by simp)
    (decay_accepts _ _ (by simp) rfl (by simp)) (decay_accepts _ _ (by simp) rfl (by simp))
  exact ⟨h2, h1⟩

/-- `c99_violated` applies: the qubit without dissipation. -/
example (L : Lapack (Fin 2 × Fin 2)) (S : Lapack (Fin 2)) :
    ∃ c : LCfg (Fin 2), c.L = L ∧ c.small = S ∧ (lReadProps c (lFresh c [1, 2, 3] [[1, 2], [3, 4], [5, 6]])).1 = .error .typeError ∧
      ∃ P : List (Matrix (Fin 2) (Fin 2) ℂ), P.length = 3 ∧
      (lReadProps c (lReadProps c (lFresh c [1, 2, 3] [[1, 2], [3, 4], [5, 6]])).2).1 = .ok (.inl (P.map some)) := by
  have ha : Accepts { decayCfg L S false none none with diss := ⟨none, none, none, none, none, none⟩ } [1, 2, 3]
      [[1, 2], [3, 4], [5, 6]] [[1, 2], [3, 4], [5, 6]] [[1, 2], [3, 4], [5, 6]] :=
    decay_accepts (L := L) (S := S) (cd := false) (pre := none) (pre' := none) [1, 2, 3] [[1, 2], [3, 4], [5, 6]] (by simp) rfl (by simp)
  obtain ⟨h1, h2, -⟩ := c99_violated { decayCfg L S false none none with diss := ⟨none, none, none, none, none, none⟩ } rfl rfl
    (by simp [decayCfg, decayPar]) [1, 2, 3] rfl _ _ _ ha
  refine ⟨_, rfl, rfl, h1, (List.range 3).map fun t => expProp S .frechet false ((schroedGens (decayCfg L S false none none).drift
    (decayCfg L S false none none).ctrl [[1, 2], [3, 4], [5, 6]]).getD t 0) (([1, 2, 3] : List ℝ).getD t 0), by simp, h2.trans ?_⟩
  rw [List.map_map]
  rfl

end
end Verif.Solver
