import Verif.Solver.Lemmas

/-!
# Values read from the solver after any history (C29)

`specProps`, `specFwd`, `specRev`, `specDeriv` are the values as functions of the configuration, the transferred
times and the control amplitudes, without any cache.
-/

namespace Verif.Solver
open Verif Verif.Operator Matrix

section
variable {n m : Type} [Fintype n] [DecidableEq n]

/-- Cells computed with derivatives. -/
noncomputable def cellsD (cfg : Cfg n m) (times : List ℝ) (u : Pulse) :=
  fill (none, []) ((List.range times.length).map (stepDeriv cfg (cfg.gens u) (cfg.dirs times u) times))

/-- Cells computed without derivatives. -/
noncomputable def cellsP (cfg : Cfg n m) (times : List ℝ) (u : Pulse) :=
  fill none ((List.range times.length).map (stepPlain cfg (cfg.gens u) times))

/-- Propagators and the exception raised by their computation. -/
noncomputable def cells (cfg : Cfg n m) (times : List ℝ) (u : Pulse) :
    List (Option (Matrix n n ℂ)) × Option PyErr :=
  if cfg.calcDeriv then ((cellsD cfg times u).1.map Prod.fst, (cellsD cfg times u).2) else cellsP cfg times u

def orErr {α : Type} (e : Option PyErr) (x : Except PyErr α) : Except PyErr α :=
  match e with
  | some e => .error e
  | none => x

noncomputable def specProps (cfg : Cfg n m) (times : List ℝ) (u : Pulse) :=
  orErr (cells cfg times u).2 (.ok (cells cfg times u).1)

noncomputable def specFwd (cfg : Cfg n m) (times : List ℝ) (u : Pulse) :=
  let r := fwdLoop (cells cfg times u).1 cfg.init
  orErr (cells cfg times u).2 (orErr r.2 (.ok (cfg.init :: r.1)))

def revOf (ps : List (Option (Matrix n n ℂ))) : Except PyErr (List (Matrix n n ℂ)) :=
  match ps with
  | [] => .error .indexError
  | none :: _ => .error .attributeError
  | some P :: ps =>
    let r := revLoop ((some P :: ps).reverse) 1
    orErr r.2 (.ok (1 :: r.1))

noncomputable def specRev (cfg : Cfg n m) (times : List ℝ) (u : Pulse) :=
  orErr (cells cfg times u).2 (revOf (cells cfg times u).1)

noncomputable def grapeCells (cfg : Cfg n m) (times : List ℝ) (u : Pulse) :=
  fill (List.replicate cfg.nCtrl none) ((List.range times.length).map
    (grapeRow cfg.nCtrl (cfg.dirs times u) times (cellsP cfg times u).1))

noncomputable def specDeriv (cfg : Cfg n m) (times : List ℝ) (u : Pulse) :
    Except PyErr (List (List (Option (Option (Matrix n n ℂ))))) :=
  match cfg.approx with
  | .none => orErr (cellsD cfg times u).2 (.ok (byControl cfg.nCtrl ((cellsD cfg times u).1.map Prod.snd)))
  | .grape => orErr (cellsP cfg times u).2 (orErr (grapeCells cfg times u).2 (.ok (grapeCells cfg times u).1))
  | .other => .error .valueError

/-- Configurations for which the order of the reads does not matter: either the derivatives are computed together
with the propagators, or the propagators of `exp` and `dexp` agree, or the approximation is used and nothing else. -/
def Stable (cfg : Cfg n m) : Prop :=
  (cfg.approx = .none ∧ cfg.calcDeriv = true) ∨
  (cfg.approx = .none ∧ (cfg.method = .spectral ∨ cfg.method = .frechet) ∧
    ∀ (times : List ℝ) (u : Pulse) (t : Nat) (Ds : List (Matrix n n ℂ)), (cfg.dirs times u)[t]? = some Ds → Ds ≠ []) ∨
  (cfg.approx ≠ .none ∧ cfg.calcDeriv = false)

/-- If the computation with derivatives succeeds, so does the one without, with the same propagators. -/
theorem cellsD_cellsP (cfg : Cfg n m) (hm : cfg.method = .spectral ∨ cfg.method = .frechet)
    (hd : ∀ (times : List ℝ) (u : Pulse) (t : Nat) (Ds : List (Matrix n n ℂ)), (cfg.dirs times u)[t]? = some Ds → Ds ≠ []) (times : List ℝ) (u : Pulse)
    (h : (cellsD cfg times u).2 = none) : cellsP cfg times u = ((cellsD cfg times u).1.map Prod.fst, none) := by
  have hmo : cfg.method ≠ .other := by rcases hm with h | h <;> rw [h] <;> decide
  have key : ∀ t ∈ List.range times.length, ∃ P gs,
      stepDeriv cfg (cfg.gens u) (cfg.dirs times u) times t = .ok (some P, gs) ∧
      stepPlain cfg (cfg.gens u) times t = .ok (some P) := by
    intro t ht
    have hl := fill_none h
    have hmem := congrArg (fun l => l[t]?) hl
    simp only [List.getElem?_map, List.getElem?_range (List.mem_range.mp ht), Option.map_some] at hmem
    cases hc : (cellsD cfg times u).1[t]? with
    | none => rw [show (fill (none, []) ((List.range times.length).map
        (stepDeriv cfg (cfg.gens u) (cfg.dirs times u) times))) = cellsD cfg times u from rfl, hc] at hmem
              simp at hmem
    | some cell =>
      rw [show (fill (none, []) ((List.range times.length).map
        (stepDeriv cfg (cfg.gens u) (cfg.dirs times u) times))) = cellsD cfg times u from rfl, hc] at hmem
      simp only [Option.map_some, Option.some.injEq] at hmem
      unfold stepDeriv at hmem
      unfold stepDeriv stepPlain
      cases hG : (cfg.gens u)[t]? with
      | none => simp [hG] at hmem
      | some G =>
        cases hD : (cfg.dirs times u)[t]? with
        | none => simp [hG, hD] at hmem
        | some Ds =>
          cases ht : times[t]? with
          | none => simp [hG, hD, ht] at hmem
          | some τ =>
            refine ⟨dexpProp cfg.L cfg.method cfg.skew G τ,
              Ds.map fun D => dexpGrad cfg.L cfg.method cfg.skew G D τ, ?_, ?_⟩
            · simp only [hG, hD, ht, stepControls_ok cfg hmo, hd _ _ _ _ hD, if_false, bind, Except.bind, pure, Except.pure] at hmem ⊢
              by_cases hlt : Ds.length < cfg.nCtrl
              · simp [hlt] at hmem
              · rw [if_neg hlt]
            · simp only [exp_expProp _ hmo, expProp_eq_dexpProp _ hm]; rfl
  choose! P gs h1 h2 using key
  unfold cellsP cellsD
  rw [fill_map_ok none _ _ (fun t => some (P t)) h2, fill_map_ok _ _ _ (fun t => (some (P t), gs t)) h1]
  simp [Function.comp_def]

/-- The propagator of one time step. -/
noncomputable def propOf (cfg : Cfg n m) (G : Matrix n n ℂ) (τ : ℝ) : Matrix n n ℂ :=
  if cfg.calcDeriv then dexpProp cfg.L cfg.method cfg.skew G τ else expProp cfg.L cfg.method cfg.skew G τ

/-- The derivative of one time step. -/
noncomputable def gradOf (cfg : Cfg n m) (G D : Matrix n n ℂ) (τ : ℝ) : Option (Matrix n n ℂ) :=
  dexpGrad cfg.L cfg.method cfg.skew G D τ

/-- With a known method and enough generators, the computation with derivatives succeeds. -/
theorem cellsD_ok (cfg : Cfg n m) (hm : cfg.method ≠ .other) (times : List ℝ) (u : Pulse)
    (hg : times.length ≤ (cfg.gens u).length)
    (hd : ∀ t, t < times.length → ∃ Ds, (cfg.dirs times u)[t]? = some Ds ∧ Ds ≠ [] ∧ cfg.nCtrl ≤ Ds.length) :
    cellsD cfg times u = ((List.range times.length).map fun t =>
      (some (dexpProp cfg.L cfg.method cfg.skew ((cfg.gens u).getD t 0) (times.getD t 0)),
        ((cfg.dirs times u).getD t []).map fun D => gradOf cfg ((cfg.gens u).getD t 0) D (times.getD t 0)), none) := by
  refine fill_map_ok _ _ _ _ fun t ht => ?_
  have ht' := List.mem_range.mp ht
  obtain ⟨Ds, hD, hne, hnc⟩ := hd t ht'
  have hG : t < (cfg.gens u).length := by omega
  simp only [stepDeriv, List.getElem?_eq_getElem hG, List.getElem?_eq_getElem ht', hD]
  rw [stepControls_ok cfg hm, if_neg hne]
  simp only [bind, Except.bind, pure, Except.pure, not_lt.mpr hnc, if_false]
  simp [gradOf, List.getD_eq_getElem?_getD, hD, List.getElem?_eq_getElem hG, List.getElem?_eq_getElem ht']

theorem cellsP_ok (cfg : Cfg n m) (hm : cfg.method ≠ .other) (times : List ℝ) (u : Pulse)
    (hg : times.length ≤ (cfg.gens u).length) :
    cellsP cfg times u = ((List.range times.length).map fun t =>
      some (expProp cfg.L cfg.method cfg.skew ((cfg.gens u).getD t 0) (times.getD t 0)), none) := by
  refine fill_map_ok _ _ _ _ fun t ht => ?_
  have ht' := List.mem_range.mp ht
  have hG : t < (cfg.gens u).length := by omega
  simp only [stepPlain, List.getElem?_eq_getElem hG, List.getElem?_eq_getElem ht', exp_expProp _ hm]
  simp [List.getD_eq_getElem?_getD, List.getElem?_eq_getElem hG, List.getElem?_eq_getElem ht', Except.map]

theorem cells_ok (cfg : Cfg n m) (hm : cfg.method ≠ .other) (times : List ℝ) (u : Pulse)
    (hg : times.length ≤ (cfg.gens u).length)
    (hd : ∀ t, t < times.length → ∃ Ds, (cfg.dirs times u)[t]? = some Ds ∧ Ds ≠ [] ∧ cfg.nCtrl ≤ Ds.length) :
    cells cfg times u = (((List.range times.length).map fun t =>
      propOf cfg ((cfg.gens u).getD t 0) (times.getD t 0)).map some, none) := by
  unfold cells
  cases hc : cfg.calcDeriv with
  | true => rw [if_pos rfl, cellsD_ok cfg hm times u hg hd]; simp [propOf, hc, Function.comp_def]
  | false => rw [if_neg (by simp), cellsP_ok cfg hm times u hg]; simp [propOf, hc, Function.comp_def]

/-- State invariant: everything cached is the value for the amplitudes `u`, computed without exception. -/
structure Inv (cfg : Cfg n m) (u : Pulse) (s : St n m) : Prop where
  amps : s.amps = some u
  dyn : ∀ g, s.dynGen = some g → g = cfg.gens u
  prop : ∀ p, s.prop = some p → cells cfg s.times u = (p, none)
  fwd : ∀ f, s.fwd = some f → specFwd cfg s.times u = .ok f
  rev : ∀ r, s.rev = some r → specRev cfg s.times u = .ok r
  deriv : ∀ d, s.deriv = some d → specDeriv cfg s.times u = .ok d

theorem Inv.reset {cfg : Cfg n m} {u : Pulse} {s : St n m} (h : s.amps = some u) : Inv cfg u (reset s) :=
  ⟨h, fun _ h => (by simp [Solver.reset] at h), fun _ h => (by simp [Solver.reset] at h),
    fun _ h => (by simp [Solver.reset] at h), fun _ h => (by simp [Solver.reset] at h),
    fun _ h => (by simp [Solver.reset] at h)⟩

/-- Effect of computing the propagators with derivatives. -/
theorem computePropagation_true {cfg : Cfg n m} {u : Pulse} {s : St n m} (h : Inv cfg u s) :
    computePropagation cfg true s = ((cellsD cfg s.times u).2,
      { s with dynGen := some (cfg.gens u), prop := some ((cellsD cfg s.times u).1.map Prod.fst),
               deriv := some (byControl cfg.nCtrl ((cellsD cfg s.times u).1.map Prod.snd)) }) := by
  have hg : s.dynGen.getD (cfg.gens u) = cfg.gens u := by
    cases hd : s.dynGen with
    | none => rfl
    | some g => simp [h.dyn g hd]
  simp only [computePropagation, h.amps, hg]
  rfl

theorem computePropagation_false {cfg : Cfg n m} {u : Pulse} {s : St n m} (h : Inv cfg u s) :
    computePropagation cfg false s = ((cellsP cfg s.times u).2,
      { s with dynGen := some (cfg.gens u), prop := some (cellsP cfg s.times u).1 }) := by
  have hg : s.dynGen.getD (cfg.gens u) = cfg.gens u := by
    cases hd : s.dynGen with
    | none => rfl
    | some g => simp [h.dyn g hd]
  simp only [computePropagation, h.amps, hg]
  rfl

/-- Computing the propagators in the default mode. -/
theorem computePropagation_spec {cfg : Cfg n m} (hst : Stable cfg) {u : Pulse} {s : St n m} (h : Inv cfg u s) :
    (computePropagation cfg cfg.calcDeriv s).1 = (cells cfg s.times u).2 ∧
    (computePropagation cfg cfg.calcDeriv s).2.prop = some (cells cfg s.times u).1 ∧
    ((cells cfg s.times u).2 = none → Inv cfg u (computePropagation cfg cfg.calcDeriv s).2) ∧
    (computePropagation cfg cfg.calcDeriv s).2.times = s.times := by
  unfold cells
  cases hc : cfg.calcDeriv with
  | true =>
    have hap : cfg.approx = .none := by
      rcases hst with h | h | h
      · exact h.1
      · exact h.1
      · simp [hc] at h
    rw [computePropagation_true h]
    refine ⟨rfl, rfl, fun he => ⟨h.amps, ?_, ?_, h.fwd, h.rev, ?_⟩, rfl⟩
    · intro g hg; simpa using hg.symm
    · intro p hp
      simp only [Option.some.injEq] at hp
      simp only [if_true] at he
      simp [cells, hc, ← hp, he]
    · intro d hd
      simp only [Option.some.injEq] at hd
      simp only [if_true] at he
      simp [specDeriv, hap, he, orErr, ← hd]
  | false =>
    rw [computePropagation_false h]
    refine ⟨rfl, rfl, fun he => ⟨h.amps, ?_, ?_, h.fwd, h.rev, h.deriv⟩, rfl⟩
    · intro g hg; simpa using hg.symm
    · intro p hp
      simp only [Option.some.injEq] at hp
      rw [if_neg (by simp)] at he
      rw [cells, if_neg (by simp [hc]), ← hp, ← he]

theorem ensureProp_spec {cfg : Cfg n m} (hst : Stable cfg) {u : Pulse} {s : St n m} (h : Inv cfg u s) :
    (ensureProp cfg cfg.calcDeriv s).1 = (cells cfg s.times u).2 ∧
    (ensureProp cfg cfg.calcDeriv s).2.prop = some (cells cfg s.times u).1 ∧
    ((cells cfg s.times u).2 = none → Inv cfg u (ensureProp cfg cfg.calcDeriv s).2) ∧
    (ensureProp cfg cfg.calcDeriv s).2.times = s.times := by
  unfold ensureProp
  cases hp : s.prop with
  | none => exact computePropagation_spec hst h
  | some p => have := h.prop p hp; simp [this, hp, h]

/-- What a read returns, and that the invariant survives a successful read. -/
def ReadOk {α : Type} (cfg : Cfg n m) (u : Pulse) (s : St n m) (r : Except PyErr α × St n m)
    (spec : Except PyErr α) : Prop :=
  r.1 = spec ∧ ((∃ v, r.1 = .ok v) → Inv cfg u r.2 ∧ r.2.times = s.times)

theorem readProps_ok {cfg : Cfg n m} (hst : Stable cfg) {u : Pulse} {s : St n m} (h : Inv cfg u s) :
    ReadOk cfg u s (readProps cfg s) (specProps cfg s.times u) := by
  unfold readProps specProps
  cases hp : s.prop with
  | some p => have := h.prop p hp; exact ⟨by simp [this, orErr], fun _ => ⟨h, rfl⟩⟩
  | none =>
    obtain ⟨h1, h2, h3, h4⟩ := computePropagation_spec hst h
    generalize computePropagation cfg cfg.calcDeriv s = r at *
    obtain ⟨e, s'⟩ := r
    simp only at h1 h2 h3 h4
    cases e with
    | some e => simp only [ReadOk, ← h1, orErr]; exact ⟨by trivial, by rintro ⟨v, hv⟩; simp at hv⟩
    | none => simp only [ReadOk, ← h1, orErr, h2]; exact ⟨by trivial, fun _ => ⟨h3 h1.symm, h4⟩⟩

theorem readFwd_ok {cfg : Cfg n m} (hst : Stable cfg) {u : Pulse} {s : St n m} (h : Inv cfg u s) :
    ReadOk cfg u s (readFwd cfg s) (specFwd cfg s.times u) := by
  unfold readFwd
  cases hp : s.fwd with
  | some p => exact ⟨by simp [h.fwd p hp], fun _ => ⟨h, rfl⟩⟩
  | none =>
    obtain ⟨h1, h2, h3, h4⟩ := ensureProp_spec hst h
    unfold computeFwd
    generalize ensureProp cfg cfg.calcDeriv s = r at *
    obtain ⟨e, s'⟩ := r
    simp only at h1 h2 h3 h4
    cases e with
    | some e => simp only [ReadOk, specFwd, ← h1, orErr]; exact ⟨by trivial, by rintro ⟨v, hv⟩; simp at hv⟩
    | none =>
      have hI := h3 h1.symm
      simp only [ReadOk, h2, Option.getD_some]
      cases hf : (fwdLoop (cells cfg s.times u).1 cfg.init).2 with
      | some e => simp only [specFwd, ← h1, hf, orErr]; exact ⟨by trivial, by rintro ⟨v, hv⟩; simp at hv⟩
      | none =>
        simp only [specFwd, ← h1, hf, orErr]
        refine ⟨by trivial, fun _ => ⟨⟨hI.amps, hI.dyn, fun p hp => hI.prop p (h2.trans hp), ?_, hI.rev, hI.deriv⟩, h4⟩⟩
        intro f hf'
        simp only [Option.some.injEq] at hf'
        simp only [specFwd, h4, ← h1, hf, orErr, hf']

theorem readRev_ok {cfg : Cfg n m} (hst : Stable cfg) {u : Pulse} {s : St n m} (h : Inv cfg u s) :
    ReadOk cfg u s (readRev cfg s) (specRev cfg s.times u) := by
  unfold readRev
  cases hp : s.rev with
  | some p => exact ⟨by simp [h.rev p hp], fun _ => ⟨h, rfl⟩⟩
  | none =>
    obtain ⟨h1, h2, h3, h4⟩ := ensureProp_spec hst h
    unfold computeRev
    generalize ensureProp cfg cfg.calcDeriv s = r at *
    obtain ⟨e, s'⟩ := r
    simp only at h1 h2 h3 h4
    cases e with
    | some e => simp only [ReadOk, specRev, ← h1, orErr]; exact ⟨by trivial, by rintro ⟨v, hv⟩; simp at hv⟩
    | none =>
      have hI := h3 h1.symm
      simp only [ReadOk, h2, Option.getD_some]
      cases hc : (cells cfg s.times u).1 with
      | nil => simp only [specRev, ← h1, hc, orErr, revOf]; exact ⟨by trivial, by rintro ⟨v, hv⟩; simp at hv⟩
      | cons o ps =>
        cases o with
        | none => simp only [specRev, ← h1, hc, orErr, revOf]; exact ⟨by trivial, by rintro ⟨v, hv⟩; simp at hv⟩
        | some P =>
          simp only
          cases hf : (revLoop (some P :: ps).reverse 1).2 with
          | some e =>
            simp only [specRev, ← h1, hc, revOf, hf, orErr]; exact ⟨by trivial, by rintro ⟨v, hv⟩; simp at hv⟩
          | none =>
            simp only [specRev, ← h1, hc, revOf, hf, orErr]
            refine ⟨by trivial, fun _ => ⟨⟨hI.amps, hI.dyn, fun p hp => hI.prop p (h2.trans ((congrArg some hc).trans hp)), hI.fwd, ?_, hI.deriv⟩, h4⟩⟩
            intro f hf'
            simp only [Option.some.injEq] at hf'
            simp only [specRev, h4, ← h1, hc, revOf, hf, orErr, hf']

theorem readDeriv_ok {cfg : Cfg n m} (hst : Stable cfg) {u : Pulse} {s : St n m} (h : Inv cfg u s) :
    ReadOk cfg u s (readDeriv cfg s) (specDeriv cfg s.times u) := by
  unfold readDeriv
  cases hp : s.deriv with
  | some p => exact ⟨by simp [h.deriv p hp], fun _ => ⟨h, rfl⟩⟩
  | none =>
    unfold computeDeriv specDeriv
    cases ha : cfg.approx with
    | none =>
      simp only
      rw [computePropagation_true h]
      cases he : (cellsD cfg s.times u).2 with
      | some e => exact ⟨by trivial, by rintro ⟨v, hv⟩; simp at hv⟩
      | none =>
        refine ⟨by trivial, fun _ => ⟨⟨h.amps, ?_, ?_, h.fwd, h.rev, ?_⟩, rfl⟩⟩
        · intro g hg; simpa using hg.symm
        · intro p hp
          simp only [Option.some.injEq] at hp
          unfold cells
          cases hc : cfg.calcDeriv with
          | true => simp [← hp, he]
          | false =>
            rcases hst with h | h | h
            · simp [hc] at h
            · rw [if_neg (by simp), cellsD_cellsP cfg h.2.1 h.2.2 _ _ he, ← hp]
            · exact absurd ha h.1
        · intro d hd
          simp only [Option.some.injEq] at hd
          simp [specDeriv, ha, he, orErr, ← hd]
    | other => exact ⟨by trivial, by rintro ⟨v, hv⟩; simp at hv⟩
    | grape =>
      have hc : cfg.calcDeriv = false := by
        rcases hst with h | h | h
        · simp [ha] at h
        · simp [ha] at h
        · exact h.2
      obtain ⟨h1, h2, h3, h4⟩ := ensureProp_spec hst h
      rw [hc] at h1 h2 h3 h4
      have hcells : cells cfg s.times u = cellsP cfg s.times u := by rw [cells, if_neg (by simp [hc])]
      rw [hcells] at h1 h2 h3
      simp only
      generalize ensureProp cfg false s = r at *
      obtain ⟨e, s'⟩ := r
      simp only at h1 h2 h3 h4
      cases e with
      | some e => simp only [ReadOk, ← h1, orErr]; exact ⟨by trivial, by rintro ⟨v, hv⟩; simp at hv⟩
      | none =>
        have hI := h3 h1.symm
        simp only [ReadOk, h2, hI.amps, Option.getD_some, h4, ← h1]
        rw [show fill (List.replicate cfg.nCtrl none) ((List.range s.times.length).map
          (grapeRow cfg.nCtrl (cfg.dirs s.times u) s.times (cellsP cfg s.times u).1)) = grapeCells cfg s.times u from rfl]
        cases hf : (grapeCells cfg s.times u).2 with
        | some e => exact ⟨by trivial, by rintro ⟨v, hv⟩; simp at hv⟩
        | none =>
          refine ⟨by trivial, fun _ => ⟨⟨rfl, hI.dyn, fun p hp => h4 ▸ hI.prop p (h2.trans hp),
            fun f hf => h4 ▸ hI.fwd f hf, fun f hf => h4 ▸ hI.rev f hf, ?_⟩, rfl⟩⟩
          intro d hd
          simp only [Option.some.injEq] at hd
          simp only [specDeriv, ha, h4, ← h1, hf, orErr, hd]

/-! ## Setting a pulse -/

/-- The amplitudes an accepted pulse leads to on a grid; `none` if the pulse is rejected. -/
noncomputable def ampsOf (cfg : Cfg n m) (τ : List ℝ) (y : Pulse) : Option Pulse :=
  match cfg.tf τ y with
  | .error _ => none
  | .ok x => match cfg.amp x with
    | .error _ => none
    | .ok u => if u.ndim = 2 ∧ u.rows.length = (cfg.xTimes τ).length ∧ u.cols = cfg.nCtrl then some u.rows else none

theorem checkAmps_none (steps nCtrl : Nat) (u : Raw) :
    checkAmps steps nCtrl u = none ↔ u.ndim = 2 ∧ u.rows.length = steps ∧ u.cols = nCtrl := by
  unfold checkAmps
  by_cases h1 : u.ndim = 2 <;> by_cases h2 : u.rows.length = steps <;> by_cases h3 : u.cols = nCtrl <;>
    simp [h1, h2, h3]

/-- Setting a pulse different from the last one tried. -/
theorem setPars_new (cfg : Cfg n m) (y : Pulse) (s : St n m) (hy : s.optPars ≠ some y)
    (ht : s.times = cfg.xTimes s.tau) :
    ((setPars cfg y s).1 = none ↔ ∃ u, ampsOf cfg s.tau y = some u) ∧
    (setPars cfg y s).2.tau = s.tau ∧ (setPars cfg y s).2.times = s.times ∧
    (setPars cfg y s).2.optPars = some y ∧
    (∀ u, ampsOf cfg s.tau y = some u → Inv cfg u (setPars cfg y s).2) ∧
    (ampsOf cfg s.tau y = none → (setPars cfg y s).2.amps = s.amps ∧
      ∀ u, s.amps = some u → Inv cfg u (setPars cfg y s).2) := by
  have key : ∀ s' : St n m, s'.dynGen = none → s'.prop = none → s'.deriv = none → s'.fwd = none →
      s'.rev = none → ∀ u, s'.amps = some u → Inv cfg u s' := by
    intro s' h1 h2 h3 h4 h5 u hu
    exact ⟨hu, fun _ h => by simp [h1] at h, fun _ h => by simp [h2] at h, fun _ h => by simp [h4] at h,
      fun _ h => by simp [h5] at h, fun _ h => by simp [h3] at h⟩
  unfold setPars ampsOf
  rw [if_neg hy]
  simp only [reset]
  cases cfg.tf s.tau y with
  | error e => exact ⟨by simp, rfl, rfl, rfl, by simp, fun _ => ⟨rfl, fun u hu => key _ rfl rfl rfl rfl rfl u hu⟩⟩
  | ok x =>
    simp only
    cases cfg.amp x with
    | error e => exact ⟨by simp, rfl, rfl, rfl, by simp, fun _ => ⟨rfl, fun u hu => key _ rfl rfl rfl rfl rfl u hu⟩⟩
    | ok u =>
      simp only
      have hchk : checkAmps s.times.length cfg.nCtrl u = none ↔
          u.ndim = 2 ∧ u.rows.length = (cfg.xTimes s.tau).length ∧ u.cols = cfg.nCtrl := by
        rw [checkAmps_none, ht]
      cases hc : checkAmps s.times.length cfg.nCtrl u with
      | none =>
        rw [if_pos (hchk.mp hc)]
        refine ⟨by simp, rfl, rfl, rfl, ?_, by simp⟩
        rintro u' hu'
        simp only [Option.some.injEq] at hu'
        exact key _ rfl rfl rfl rfl rfl _ (by rw [hu'])
      | some e =>
        rw [if_neg (fun h => by rw [hchk.mpr h] at hc; simp at hc)]
        exact ⟨by simp, rfl, rfl, rfl, by simp, fun _ => ⟨rfl, fun u hu => key _ rfl rfl rfl rfl rfl u hu⟩⟩

end
end Verif.Solver
