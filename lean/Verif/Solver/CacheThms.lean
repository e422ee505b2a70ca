import Verif.Solver.Cache

/-!
# C29, C30, C31, C78, C79: histories of a solver object
-/

namespace Verif.Solver
open Verif Verif.Operator Matrix

section
variable {n m : Type} [Fintype n] [DecidableEq n]

/-- The public operations. -/
inductive Op where
  | set (y : Pulse)
  | times (τ : List ℝ)
  | props | fwd | rev | deriv

/-- Forget the value read. -/
def outcome {α : Type} (x : Except PyErr α × St n m) : Option PyErr × St n m :=
  (match x.1 with | .ok _ => none | .error e => some e, x.2)

/-- Execute one operation: the exception raised, if any, and the new state. -/
noncomputable def Op.run (cfg : Cfg n m) : Op → St n m → Option PyErr × St n m
  | .set y, s => setPars cfg y s
  | .times τ, s => (none, setTimes cfg τ s)
  | .props, s => outcome (readProps cfg s)
  | .fwd, s => outcome (readFwd cfg s)
  | .rev, s => outcome (readRev cfg s)
  | .deriv, s => outcome (readDeriv cfg s)

/-- Execute a list of operations; the caller catches all exceptions. -/
noncomputable def exec (cfg : Cfg n m) (ops : List Op) (s : St n m) : St n m :=
  ops.foldl (fun s op => (op.run cfg s).2) s

/-- Execute a list of operations; `none` if one of them raises. -/
noncomputable def execOk (cfg : Cfg n m) : List Op → St n m → Option (St n m)
  | [], s => some s
  | op :: ops, s => match op.run cfg s with
    | (none, s) => execOk cfg ops s
    | (some _, _) => none

/-- The pulse set last. -/
def lastPulse : List Op → Option Pulse → Option Pulse
  | [], y => y
  | .set y :: ops, _ => lastPulse ops (some y)
  | _ :: ops, y => lastPulse ops y

/-- A state with pulse `y` set on a new solver with grid `τ`. -/
noncomputable def fresh (cfg : Cfg n m) (τ : List ℝ) (y : Pulse) : St n m := (setPars cfg y (construct cfg τ)).2

/-- All four results can be read as if from the state `s'`. -/
def SameReads (cfg : Cfg n m) (s s' : St n m) : Prop :=
  (readProps cfg s).1 = (readProps cfg s').1 ∧ (readFwd cfg s).1 = (readFwd cfg s').1 ∧
  (readRev cfg s).1 = (readRev cfg s').1 ∧ (readDeriv cfg s).1 = (readDeriv cfg s').1

/-- Attributes no read touches. -/
def Frame (s s' : St n m) : Prop :=
  s'.tau = s.tau ∧ s'.times = s.times ∧ s'.optPars = s.optPars ∧ s'.amps = s.amps

theorem frame_computePropagation (cfg : Cfg n m) (wd : Bool) (s : St n m) :
    Frame s (computePropagation cfg wd s).2 := by
  unfold computePropagation
  cases h : s.amps with
  | none => exact ⟨rfl, rfl, rfl, by simp [h]⟩
  | some u => cases wd <;> exact ⟨rfl, rfl, rfl, by simp [h]⟩

theorem frame_ensureProp (cfg : Cfg n m) (wd : Bool) (s : St n m) : Frame s (ensureProp cfg wd s).2 := by
  unfold ensureProp
  cases s.prop with
  | none => exact frame_computePropagation cfg wd s
  | some p => exact ⟨rfl, rfl, rfl, rfl⟩

theorem frame_readProps (cfg : Cfg n m) (s : St n m) : Frame s (readProps cfg s).2 := by
  unfold readProps
  cases s.prop with
  | some p => exact ⟨rfl, rfl, rfl, rfl⟩
  | none =>
    have := frame_computePropagation cfg cfg.calcDeriv s
    simp only
    split <;> rename_i heq <;> rw [heq] at this <;> exact this

theorem frame_computeFwd (cfg : Cfg n m) (s : St n m) : Frame s (computeFwd cfg s).2 := by
  unfold computeFwd
  have := frame_ensureProp cfg cfg.calcDeriv s
  split <;> rename_i heq <;> rw [heq] at this <;> exact this

theorem frame_computeRev (cfg : Cfg n m) (s : St n m) : Frame s (computeRev cfg s).2 := by
  unfold computeRev
  have := frame_ensureProp cfg cfg.calcDeriv s
  split <;> rename_i heq <;> rw [heq] at this
  · exact this
  · split <;> exact this

theorem frame_computeDeriv (cfg : Cfg n m) (s : St n m) : Frame s (computeDeriv cfg s).2 := by
  unfold computeDeriv
  cases cfg.approx with
  | none => exact frame_computePropagation cfg true s
  | other => exact ⟨rfl, rfl, rfl, rfl⟩
  | grape =>
    have := frame_ensureProp cfg false s
    simp only
    split <;> rename_i heq <;> rw [heq] at this <;> exact this

theorem frame_readFwd (cfg : Cfg n m) (s : St n m) : Frame s (readFwd cfg s).2 := by
  unfold readFwd
  cases s.fwd with
  | some p => exact ⟨rfl, rfl, rfl, rfl⟩
  | none =>
    have := frame_computeFwd cfg s
    simp only
    split <;> rename_i heq <;> rw [heq] at this <;> exact this

theorem frame_readRev (cfg : Cfg n m) (s : St n m) : Frame s (readRev cfg s).2 := by
  unfold readRev
  cases s.rev with
  | some p => exact ⟨rfl, rfl, rfl, rfl⟩
  | none =>
    have := frame_computeRev cfg s
    simp only
    split <;> rename_i heq <;> rw [heq] at this <;> exact this

theorem frame_readDeriv (cfg : Cfg n m) (s : St n m) : Frame s (readDeriv cfg s).2 := by
  unfold readDeriv
  cases s.deriv with
  | some p => exact ⟨rfl, rfl, rfl, rfl⟩
  | none =>
    have := frame_computeDeriv cfg s
    simp only
    split <;> rename_i heq <;> rw [heq] at this <;> exact this

theorem frame_setPars (cfg : Cfg n m) (y : Pulse) (s : St n m) :
    (setPars cfg y s).2.tau = s.tau ∧ (setPars cfg y s).2.times = s.times := by
  unfold setPars
  by_cases h : s.optPars = some y
  · rw [if_pos h]; exact ⟨rfl, rfl⟩
  · rw [if_neg h]
    simp only
    split
    · exact ⟨rfl, rfl⟩
    · split
      · exact ⟨rfl, rfl⟩
      · split <;> exact ⟨rfl, rfl⟩

/-- A read operation leaves everything but the caches alone. -/
theorem frame_run (cfg : Cfg n m) (op : Op) (s : St n m) (h1 : ∀ y, op ≠ .set y) (h2 : ∀ τ, op ≠ .times τ) :
    Frame s (op.run cfg s).2 := by
  cases op with
  | set y => exact absurd rfl (h1 y)
  | times τ => exact absurd rfl (h2 τ)
  | props => exact frame_readProps cfg s
  | fwd => exact frame_readFwd cfg s
  | rev => exact frame_readRev cfg s
  | deriv => exact frame_readDeriv cfg s

/-- Two states with the invariant for the same amplitudes and times give the same reads. -/
theorem Inv.sameReads {cfg : Cfg n m} (hst : Stable cfg) {u : Pulse} {s s' : St n m} (h : Inv cfg u s)
    (h' : Inv cfg u s') (ht : s.times = s'.times) : SameReads cfg s s' :=
  ⟨by rw [(readProps_ok hst h).1, (readProps_ok hst h').1, ht], by rw [(readFwd_ok hst h).1, (readFwd_ok hst h').1, ht],
    by rw [(readRev_ok hst h).1, (readRev_ok hst h').1, ht], by rw [(readDeriv_ok hst h).1, (readDeriv_ok hst h').1, ht]⟩

theorem construct_facts (cfg : Cfg n m) (τ : List ℝ) :
    (construct cfg τ).tau = τ ∧ (construct cfg τ).times = cfg.xTimes τ ∧ (construct cfg τ).optPars = none ∧
      (construct cfg τ).amps = none := ⟨rfl, rfl, rfl, rfl⟩

theorem fresh_inv (cfg : Cfg n m) (τ : List ℝ) (y u : Pulse) (h : ampsOf cfg τ y = some u) :
    Inv cfg u (fresh cfg τ y) ∧ (fresh cfg τ y).times = cfg.xTimes τ := by
  obtain ⟨-, -, h3, -, h5, -⟩ := setPars_new cfg y (construct cfg τ) (by simp [construct_facts]) rfl
  exact ⟨h5 u h, h3⟩

/-- What the reads look at: times, amplitudes and caches. -/
def view (s : St n m) : St n m := { s with tau := [], optPars := none, xPars := none }

theorem computePropagation_view (cfg : Cfg n m) (wd : Bool) (s : St n m) :
    computePropagation cfg wd (view s) = ((computePropagation cfg wd s).1, view (computePropagation cfg wd s).2) := by
  unfold computePropagation
  cases ha : s.amps with
  | none => simp only [view, ha]
  | some u => cases wd <;> simp only [view, ha] <;> rfl

theorem ensureProp_view (cfg : Cfg n m) (wd : Bool) (s : St n m) :
    ensureProp cfg wd (view s) = ((ensureProp cfg wd s).1, view (ensureProp cfg wd s).2) := by
  unfold ensureProp
  cases hp : s.prop with
  | none => simp only [show (view s).prop = none from hp]; exact computePropagation_view cfg wd s
  | some p => simp only [show (view s).prop = some p from hp]

theorem reads_view (cfg : Cfg n m) (s : St n m) : SameReads cfg (view s) s := by
  refine ⟨?_, ?_, ?_, ?_⟩
  · unfold readProps
    cases hp : s.prop with
    | some p => simp only [show (view s).prop = some p from hp]
    | none =>
      simp only [show (view s).prop = none from hp]
      rw [computePropagation_view]
      generalize computePropagation cfg cfg.calcDeriv s = r
      obtain ⟨_ | e, t⟩ := r <;> rfl
  · unfold readFwd computeFwd
    cases hp : s.fwd with
    | some p => simp only [show (view s).fwd = some p from hp]
    | none =>
      simp only [show (view s).fwd = none from hp]
      rw [ensureProp_view]
      generalize ensureProp cfg cfg.calcDeriv s = r
      obtain ⟨_ | e, t⟩ := r
      · simp only [show (view t).prop = t.prop from rfl]
        cases (fwdLoop (t.prop.getD []) cfg.init).2 <;> rfl
      · rfl
  · unfold readRev computeRev
    cases hp : s.rev with
    | some p => simp only [show (view s).rev = some p from hp]
    | none =>
      simp only [show (view s).rev = none from hp]
      rw [ensureProp_view]
      generalize ensureProp cfg cfg.calcDeriv s = r
      obtain ⟨_ | e, t⟩ := r
      · simp only [show (view t).prop = t.prop from rfl]
        cases t.prop.getD [] with
        | nil => rfl
        | cons o ps =>
          cases o with
          | none => rfl
          | some P =>
            simp only
            cases (revLoop (some P :: ps).reverse 1).2 <;> rfl
      · rfl
  · unfold readDeriv computeDeriv
    cases hp : s.deriv with
    | some p => simp only [show (view s).deriv = some p from hp]
    | none =>
      simp only [show (view s).deriv = none from hp]
      cases cfg.approx with
      | none =>
        simp only
        rw [computePropagation_view]
        generalize computePropagation cfg true s = r
        obtain ⟨_ | e, t⟩ := r <;> rfl
      | other => rfl
      | grape =>
        simp only
        rw [ensureProp_view]
        generalize ensureProp cfg false s = r
        obtain ⟨_ | e, t⟩ := r
        · simp only [show (view t).prop = t.prop from rfl, show (view t).times = t.times from rfl,
            show (view t).amps = t.amps from rfl]
          generalize fill _ _ = w
          obtain ⟨w1, _ | e⟩ := w <;> rfl
        · rfl

/-- Results read from empty caches depend on amplitudes and times only. -/
theorem reset_reads (cfg : Cfg n m) (s s' : St n m) (ha : s.amps = s'.amps) (ht : s.times = s'.times) :
    SameReads cfg (reset s) (reset s') := by
  have e : view (reset s) = view (reset s') := by simp only [view, reset, ha, ht]
  have h := reads_view cfg (reset s)
  have h' := reads_view cfg (reset s')
  rw [e] at h
  exact ⟨h.1.symm.trans h'.1, h.2.1.symm.trans h'.2.1, h.2.2.1.symm.trans h'.2.2.1, h.2.2.2.symm.trans h'.2.2.2⟩

omit [Fintype n] [DecidableEq n] in
/-- An accepted new pulse leaves empty caches. -/
theorem setPars_reset (cfg : Cfg n m) (y : Pulse) (s : St n m) (hy : s.optPars ≠ some y) (h : (setPars cfg y s).1 = none) :
    (setPars cfg y s).2 = reset (setPars cfg y s).2 := by
  unfold setPars at h ⊢
  rw [if_neg hy] at h ⊢
  simp only at h ⊢
  split at h
  · simp at h
  · split at h
    · simp at h
    · split at h
      · simp at h
      · rfl

/-- The same solver with an approximation method for the derivatives which fits to `calculate_propagator_derivatives`. -/
def plainApprox (cfg : Cfg n m) : Cfg n m := { cfg with approx := if cfg.calcDeriv then .none else .grape }

omit [DecidableEq n] [Fintype n] in
theorem plainApprox_stable (cfg : Cfg n m) : Stable (plainApprox cfg) := by
  by_cases h : cfg.calcDeriv = true
  · exact Or.inl ⟨if_pos h, h⟩
  · exact Or.inr (Or.inr ⟨by simp [plainApprox, h], by simpa [plainApprox] using h⟩)

theorem stepControls_plainApprox (cfg : Cfg n m) : stepControls (plainApprox cfg) = stepControls cfg := by
  funext G τ Ds p
  induction Ds generalizing p with
  | nil => rfl
  | cons D Ds ih =>
    simp only [stepControls, ih]
    rfl

theorem stepDeriv_plainApprox (cfg : Cfg n m) : stepDeriv (plainApprox cfg) = stepDeriv cfg := by
  funext gens dirs times t
  simp only [stepDeriv, stepControls_plainApprox]
  rfl

theorem computePropagation_plainApprox (cfg : Cfg n m) : computePropagation (plainApprox cfg) = computePropagation cfg := by
  funext wd s
  simp only [computePropagation, stepDeriv_plainApprox]
  rfl

theorem reads_plainApprox (cfg : Cfg n m) :
    readProps (plainApprox cfg) = readProps cfg ∧ readFwd (plainApprox cfg) = readFwd cfg ∧
    readRev (plainApprox cfg) = readRev cfg := by
  have h : ensureProp (plainApprox cfg) = ensureProp cfg := by
    funext wd s
    simp only [ensureProp, computePropagation_plainApprox]
  refine ⟨?_, ?_, ?_⟩
  · funext s
    simp only [readProps, computePropagation_plainApprox]
    rfl
  · funext s
    simp only [readFwd, computeFwd, h]
    rfl
  · funext s
    simp only [readRev, computeRev, h]
    rfl

theorem cells_plainApprox (cfg : Cfg n m) : cells (plainApprox cfg) = cells cfg := by
  funext times u
  simp only [cells, cellsD, stepDeriv_plainApprox]
  rfl

/-- Propagators, forward and reversed propagators of a new solver, for every configuration. -/
theorem fresh_values (cfg : Cfg n m) (τ : List ℝ) (y u : Pulse) (h : ampsOf cfg τ y = some u) :
    (readProps cfg (fresh cfg τ y)).1 = specProps cfg (cfg.xTimes τ) u ∧
    (readFwd cfg (fresh cfg τ y)).1 = specFwd cfg (cfg.xTimes τ) u ∧
    (readRev cfg (fresh cfg τ y)).1 = specRev cfg (cfg.xTimes τ) u := by
  have hst := plainApprox_stable cfg
  obtain ⟨hI, hT⟩ := fresh_inv (plainApprox cfg) τ y u h
  have h1 := (readProps_ok hst hI).1
  have h2 := (readFwd_ok hst hI).1
  have h3 := (readRev_ok hst hI).1
  obtain ⟨e1, e2, e3⟩ := reads_plainApprox cfg
  rw [hT, e1, specProps, cells_plainApprox] at h1
  rw [hT, e2, specFwd, cells_plainApprox] at h2
  rw [hT, e3, specRev, cells_plainApprox] at h3
  exact ⟨h1, h2, h3⟩

/-- Invariant of histories without exceptions on a fixed grid. -/
def Tracked (cfg : Cfg n m) (τ : List ℝ) (oy : Option Pulse) (s : St n m) : Prop :=
  s.tau = τ ∧ s.times = cfg.xTimes τ ∧ s.optPars = oy ∧
    match oy with
    | none => s.amps = none ∧ s.prop = none ∧ s.fwd = none ∧ s.rev = none ∧ s.deriv = none
    | some y => ∃ u, ampsOf cfg τ y = some u ∧ Inv cfg u s

/-- Without amplitudes every read raises. -/
theorem unset_raises (cfg : Cfg n m) (s : St n m) (ha : s.amps = none) (hp : s.prop = none) (hf : s.fwd = none)
    (hr : s.rev = none) (hd : s.deriv = none) :
    (readProps cfg s).1 = .error .valueError ∧ (readFwd cfg s).1 = .error .valueError ∧
    (readRev cfg s).1 = .error .valueError ∧ (readDeriv cfg s).1 = .error .valueError := by
  refine ⟨?_, ?_, ?_, ?_⟩
  · simp [readProps, hp, computePropagation, ha]
  · simp [readFwd, computeFwd, ensureProp, hf, hp, computePropagation, ha]
  · simp [readRev, computeRev, ensureProp, hr, hp, computePropagation, ha]
  · cases h : cfg.approx <;> simp [readDeriv, computeDeriv, ensureProp, hd, hp, computePropagation, ha, h]

omit [Fintype n] [DecidableEq n] in
theorem run_none {α : Type} {x : Except PyErr α × St n m} {s' : St n m} (h : outcome x = (none, s')) :
    (∃ v, x.1 = .ok v) ∧ x.2 = s' := by
  obtain ⟨r, s⟩ := x
  cases r with
  | ok v => simp only [outcome, Prod.mk.injEq, true_and] at h; exact ⟨⟨v, rfl⟩, h⟩
  | error e => simp [outcome] at h

theorem tracked_step {cfg : Cfg n m} (hst : Stable cfg) {τ : List ℝ} {oy : Option Pulse} {s s' : St n m}
    (h : Tracked cfg τ oy s) (op : Op) (hop : ∀ τ', op ≠ .times τ') (hrun : op.run cfg s = (none, s')) :
    Tracked cfg τ (lastPulse [op] oy) s' := by
  obtain ⟨h1, h2, h3, h4⟩ := h
  have hread : ∀ (α : Type) (rd : St n m → Except PyErr α × St n m) (spec : List ℝ → Pulse → Except PyErr α),
      (∀ u s, Inv cfg u s → ReadOk cfg u s (rd s) (spec s.times u)) →
      (∀ s, s.amps = none → s.prop = none → s.fwd = none → s.rev = none → s.deriv = none →
        (rd s).1 = .error .valueError) →
      Frame s (rd s).2 → (∃ v, (rd s).1 = .ok v) → Tracked cfg τ oy (rd s).2 := by
    intro α rd spec hok hun hfr hv
    refine ⟨hfr.1.trans h1, hfr.2.1.trans h2, hfr.2.2.1.trans h3, ?_⟩
    cases oy with
    | none =>
      obtain ⟨v, hv⟩ := hv
      rw [hun s h4.1 h4.2.1 h4.2.2.1 h4.2.2.2.1 h4.2.2.2.2] at hv
      simp at hv
    | some y =>
      obtain ⟨u, hu, hI⟩ := h4
      exact ⟨u, hu, ((hok u s hI).2 hv).1⟩
  cases op with
  | times τ' => exact absurd rfl (hop τ')
  | props =>
    obtain ⟨hv, rfl⟩ := run_none hrun
    exact hread _ (readProps cfg) (specProps cfg) (fun u s => readProps_ok hst)
      (fun s a b c d e => (unset_raises cfg s a b c d e).1) (frame_readProps cfg s) hv
  | fwd =>
    obtain ⟨hv, rfl⟩ := run_none hrun
    exact hread _ (readFwd cfg) (specFwd cfg) (fun u s => readFwd_ok hst)
      (fun s a b c d e => (unset_raises cfg s a b c d e).2.1) (frame_readFwd cfg s) hv
  | rev =>
    obtain ⟨hv, rfl⟩ := run_none hrun
    exact hread _ (readRev cfg) (specRev cfg) (fun u s => readRev_ok hst)
      (fun s a b c d e => (unset_raises cfg s a b c d e).2.2.1) (frame_readRev cfg s) hv
  | deriv =>
    obtain ⟨hv, rfl⟩ := run_none hrun
    exact hread _ (readDeriv cfg) (specDeriv cfg) (fun u s => readDeriv_ok hst)
      (fun s a b c d e => (unset_raises cfg s a b c d e).2.2.2) (frame_readDeriv cfg s) hv
  | set y =>
    simp only [Op.run] at hrun
    by_cases hy : s.optPars = some y
    · have : setPars cfg y s = (none, s) := by rw [setPars, if_pos hy]
      rw [this] at hrun
      simp only [Prod.mk.injEq, true_and] at hrun
      subst hrun
      refine ⟨h1, h2, hy, ?_⟩
      rw [hy] at h3
      subst h3
      exact h4
    · obtain ⟨a, b, c, d, e, -⟩ := setPars_new cfg y s hy (by rw [h2, h1])
      rw [hrun] at a b c d e
      obtain ⟨u, hu⟩ := a.mp rfl
      exact ⟨b.trans h1, c.trans h2, d, u, h1 ▸ hu, e u hu⟩

theorem tracked_exec {cfg : Cfg n m} (hst : Stable cfg) {τ : List ℝ} (ops : List Op)
    (hops : ∀ op ∈ ops, ∀ τ', op ≠ .times τ') {oy : Option Pulse} {s s' : St n m} (h : Tracked cfg τ oy s)
    (hrun : execOk cfg ops s = some s') : Tracked cfg τ (lastPulse ops oy) s' := by
  induction ops generalizing s oy with
  | nil => simp only [execOk, Option.some.injEq] at hrun; subst hrun; exact h
  | cons op ops ih =>
    simp only [execOk] at hrun
    split at hrun
    · rename_i s1 heq
      have h1 := tracked_step hst h op (hops op (by simp)) heq
      have h2 := ih (fun op hop => hops op (by simp [hop])) h1 hrun
      cases op <;> exact h2
    · simp at hrun

/-- **C29** (for `Stable` configurations; see `c29_violated_grape`, `c29_violated_taylor` for the others)
After any history of setting pulses and reading results, none of which raised, every result read is the one a newly
constructed solver returns for the last pulse. -/
theorem c29_history_partial (cfg : Cfg n m) (hst : Stable cfg) (τ : List ℝ) (ops : List Op)
    (hops : ∀ op ∈ ops, ∀ τ', op ≠ .times τ') (s : St n m) (hrun : execOk cfg ops (construct cfg τ) = some s)
    (y : Pulse) (hy : lastPulse ops none = some y) : SameReads cfg s (fresh cfg τ y) := by
  have h0 : Tracked cfg τ none (construct cfg τ) := ⟨rfl, rfl, rfl, rfl, rfl, rfl, rfl, rfl⟩
  have h := tracked_exec hst ops hops h0 hrun
  rw [hy] at h
  obtain ⟨-, h2, -, u, hu, hI⟩ := h
  obtain ⟨hF, hFt⟩ := fresh_inv cfg τ y u hu
  exact hI.sameReads hst hF (by rw [h2, hFt])

theorem execOk_plainApprox (cfg : Cfg n m) (ops : List Op) (hd : ∀ op ∈ ops, op ≠ .deriv) (s : St n m) :
    execOk (plainApprox cfg) ops s = execOk cfg ops s := by
  induction ops generalizing s with
  | nil => rfl
  | cons op ops ih =>
    obtain ⟨e1, e2, e3⟩ := reads_plainApprox cfg
    have e : op.run (plainApprox cfg) s = op.run cfg s := by
      cases op with
      | deriv => exact absurd rfl (hd _ (by simp))
      | props => simp only [Op.run, e1]
      | fwd => simp only [Op.run, e2]
      | rev => simp only [Op.run, e3]
      | _ => rfl
    simp only [execOk, e]
    split
    · exact ih (fun op hop => hd op (by simp [hop])) _
    · rfl

/-- **C29** (for every configuration, in histories which do not read the derivatives) After any history of setting pulses and
reading propagators, forward and reversed propagators, none of which raised, these results are those of a newly constructed
solver for the last pulse. -/
theorem c29_propagators_partial (cfg : Cfg n m) (τ : List ℝ) (ops : List Op) (hops : ∀ op ∈ ops, ∀ τ', op ≠ .times τ')
    (hd : ∀ op ∈ ops, op ≠ .deriv) (s : St n m) (hrun : execOk cfg ops (construct cfg τ) = some s) (y : Pulse)
    (hy : lastPulse ops none = some y) :
    (readProps cfg s).1 = (readProps cfg (fresh cfg τ y)).1 ∧ (readFwd cfg s).1 = (readFwd cfg (fresh cfg τ y)).1 ∧
    (readRev cfg s).1 = (readRev cfg (fresh cfg τ y)).1 := by
  have h := c29_history_partial (plainApprox cfg) (plainApprox_stable cfg) τ ops hops s
    ((execOk_plainApprox cfg ops hd _).trans hrun) y hy
  obtain ⟨e1, e2, e3⟩ := reads_plainApprox cfg
  rw [SameReads, e1, e2, e3] at h
  exact ⟨h.1, h.2.1, h.2.2.1⟩

/-- Before a pulse is set every read raises ValueError. -/
theorem c29_unset (cfg : Cfg n m) (τ : List ℝ) :
    (readProps cfg (construct cfg τ)).1 = .error .valueError ∧ (readFwd cfg (construct cfg τ)).1 = .error .valueError ∧
    (readRev cfg (construct cfg τ)).1 = .error .valueError ∧
    (readDeriv cfg (construct cfg τ)).1 = .error .valueError :=
  unset_raises cfg _ rfl rfl rfl rfl rfl

/-! ## Histories with exceptions and changes of the grid -/

theorem exec_times (cfg : Cfg n m) (ops : List Op) (s : St n m) (h : s.times = cfg.xTimes s.tau) :
    (exec cfg ops s).times = cfg.xTimes (exec cfg ops s).tau := by
  induction ops generalizing s with
  | nil => exact h
  | cons op ops ih =>
    refine ih _ ?_
    by_cases h1 : ∃ y, op = .set y
    · obtain ⟨y, rfl⟩ := h1
      obtain ⟨a, b⟩ := frame_setPars cfg y s
      simp only [Op.run]
      rw [a, b, h]
    · by_cases h2 : ∃ τ, op = .times τ
      · obtain ⟨τ, rfl⟩ := h2; rfl
      · obtain ⟨a, b, -⟩ := frame_run cfg op s (fun y hy => h1 ⟨y, hy⟩) (fun y hy => h2 ⟨y, hy⟩)
        rw [a, b, h]

/-- After *any* history, including calls that raised and changes of the time grid, setting a pulse different from
the last one tried either raises exactly if a new solver on the current grid raises, or gives its results. -/
theorem set_new_pulse (cfg : Cfg n m) (τ : List ℝ) (ops : List Op) (y : Pulse)
    (hy : (exec cfg ops (construct cfg τ)).optPars ≠ some y) :
    let s := exec cfg ops (construct cfg τ)
    ((setPars cfg y s).1 = none ↔ (setPars cfg y (construct cfg s.tau)).1 = none) ∧
    ((setPars cfg y s).1 = none → SameReads cfg (setPars cfg y s).2 (fresh cfg s.tau y)) := by
  intro s
  have ht : s.times = cfg.xTimes s.tau := exec_times cfg ops _ rfl
  obtain ⟨a, b, c, -, e, -⟩ := setPars_new cfg y s hy ht
  have hc : (construct cfg s.tau).optPars ≠ some y := by simp [construct_facts]
  obtain ⟨a', -⟩ := setPars_new cfg y (construct cfg s.tau) hc rfl
  have hiff : (setPars cfg y s).1 = none ↔ (setPars cfg y (construct cfg s.tau)).1 = none := by
    rw [a, a', (construct_facts cfg s.tau).1]
  refine ⟨hiff, fun h => ?_⟩
  obtain ⟨u, hu⟩ := a.mp h
  obtain ⟨hF, hFt⟩ := fresh_inv cfg s.tau y u hu
  rw [setPars_reset cfg y s hy h, show fresh cfg s.tau y = reset (fresh cfg s.tau y) from setPars_reset cfg y _ hc (hiff.mp h)]
  exact reset_reads cfg _ _ ((e u hu).amps.trans hF.amps.symm) (by rw [c, ht, hFt])

theorem exec_tau (cfg : Cfg n m) (ops : List Op) (hops : ∀ op ∈ ops, ∀ τ', op ≠ .times τ') (s : St n m) :
    (exec cfg ops s).tau = s.tau := by
  induction ops generalizing s with
  | nil => rfl
  | cons op ops ih =>
    refine (ih (fun op hop => hops op (by simp [hop])) _).trans ?_
    by_cases h1 : ∃ y, op = .set y
    · obtain ⟨y, rfl⟩ := h1
      exact (frame_setPars cfg y s).1
    · exact (frame_run cfg op s (fun y hy => h1 ⟨y, hy⟩) (hops op (by simp))).1

/-- **C30** (partial: for a pulse different from the one tried last) After any history, in which calls may have
raised, a pulse is either rejected as by a new solver, or its results are reported. -/
theorem c30_different_pulse_partial (cfg : Cfg n m) (τ : List ℝ) (ops : List Op) (y : Pulse)
    (hops : ∀ op ∈ ops, ∀ τ', op ≠ .times τ')
    (hy : (exec cfg ops (construct cfg τ)).optPars ≠ some y) :
    ((setPars cfg y (exec cfg ops (construct cfg τ))).1 = none ↔ (setPars cfg y (construct cfg τ)).1 = none) ∧
    ((setPars cfg y (exec cfg ops (construct cfg τ))).1 = none →
      SameReads cfg (setPars cfg y (exec cfg ops (construct cfg τ))).2 (fresh cfg τ y)) := by
  have := set_new_pulse cfg τ ops y hy
  simp only [exec_tau cfg ops hops] at this
  exact this

/-- **C30** is violated, for every solver: a rejected pulse is accepted when it is set a second time, and the
results of the pulse set before are reported for it. -/
theorem c30_violated (cfg : Cfg n m) (hst : Stable cfg) (τ : List ℝ) (y₁ y₂ : Pulse)
    (h1 : (setPars cfg y₁ (construct cfg τ)).1 = none) (h2 : (setPars cfg y₂ (construct cfg τ)).1 ≠ none) :
    (setPars cfg y₂ (fresh cfg τ y₁)).1 ≠ none ∧
    (setPars cfg y₂ (setPars cfg y₂ (fresh cfg τ y₁)).2).1 = none ∧
    SameReads cfg (setPars cfg y₂ (setPars cfg y₂ (fresh cfg τ y₁)).2).2 (fresh cfg τ y₁) := by
  obtain ⟨a1, b1, c1, d1, e1, -⟩ := setPars_new cfg y₁ (construct cfg τ) (by simp [construct_facts]) rfl
  obtain ⟨a2, -⟩ := setPars_new cfg y₂ (construct cfg τ) (by simp [construct_facts]) rfl
  obtain ⟨u, hu⟩ := a1.mp h1
  have hne : y₁ ≠ y₂ := by rintro rfl; exact h2 h1
  have hnone : ampsOf cfg τ y₂ = none := by
    cases h : ampsOf cfg τ y₂ with
    | none => rfl
    | some u => exact absurd (a2.mpr ⟨u, h⟩) h2
  have hF : (fresh cfg τ y₁).tau = τ := b1
  obtain ⟨a3, b3, c3, d3, -, f3⟩ := setPars_new cfg y₂ (fresh cfg τ y₁)
    (by rw [show (fresh cfg τ y₁).optPars = some y₁ from d1]; simpa using hne) (by rw [hF]; exact c1)
  rw [hF] at a3 f3
  have hI := fresh_inv cfg τ y₁ u hu
  have hI2 := (f3 hnone).2 u hI.1.amps
  have hset : ∀ s : St n m, s.optPars = some y₂ → setPars cfg y₂ s = (none, s) := by
    intro s hs; rw [setPars, if_pos hs]
  rw [hset _ d3]
  refine ⟨fun h => ?_, rfl, hI2.sameReads hst hI.1 c3⟩
  obtain ⟨u', hu'⟩ := a3.mp h
  rw [hnone] at hu'
  simp at hu'

/-! ## C31: changing the time grid -/

/-- **C31** (partial: for a pulse different from the one tried last, same drift list) After any history and a change
of the grid, setting a pulse gives the results of a solver newly constructed on the new grid. -/
theorem c31_new_grid_partial (cfg : Cfg n m) (τ τ' : List ℝ) (ops : List Op) (y : Pulse)
    (hy : (exec cfg ops (construct cfg τ)).optPars ≠ some y) :
    let s := setTimes cfg τ' (exec cfg ops (construct cfg τ))
    ((setPars cfg y s).1 = none ↔ (setPars cfg y (construct cfg τ')).1 = none) ∧
    ((setPars cfg y s).1 = none → SameReads cfg (setPars cfg y s).2 (fresh cfg τ' y)) := by
  intro s
  have hs : s = exec cfg (ops ++ [.times τ']) (construct cfg τ) := by
    simp [exec, Op.run, s]
  have := set_new_pulse cfg τ (ops ++ [.times τ']) y (by rw [← hs]; exact hy)
  rw [← hs] at this
  exact this

/-- **C31** is violated: setting the same pulse again after a change of the grid is accepted without looking at it,
and the results are those of the amplitudes on the old grid. -/
theorem c31_same_pulse_stale (cfg : Cfg n m) (hst : Stable cfg) (τ τ' : List ℝ) (y u : Pulse)
    (h : ampsOf cfg τ y = some u) :
    let s := setTimes cfg τ' (fresh cfg τ y)
    setPars cfg y s = (none, s) ∧ (readProps cfg s).1 = specProps cfg (cfg.xTimes τ') u := by
  intro s
  obtain ⟨-, -, -, d1, -⟩ := setPars_new cfg y (construct cfg τ) (by simp [construct_facts]) rfl
  have hI : Inv cfg u s := Inv.reset (fresh_inv cfg τ y u h).1.amps
  refine ⟨?_, (readProps_ok hst hI).1⟩
  rw [setPars, if_pos]
  exact d1

/-- If the drift list is shorter than the transferred time grid, the propagators cannot be computed. -/
theorem short_drift_raises (cfg : Cfg n m) (hst : Stable cfg) (hm : cfg.method ≠ .other) (u : Pulse) (s : St n m)
    (hI : Inv cfg u s) (hg : (cfg.gens u).length < s.times.length)
    (hd : (cfg.dirs s.times u).length = s.times.length) :
    (readProps cfg s).1 = .error .indexError := by
  have herr : ∀ {α : Type} (d : α) (f : Nat → Except PyErr α) (N : Nat) (l : List Nat),
      (∀ t ∈ l, t < N → (∃ a, f t = .ok a) ∨ f t = .error .indexError) → (∀ t ∈ l, N ≤ t → f t = .error .indexError) → (∃ t ∈ l, N ≤ t) →
      (fill d (l.map f)).2 = some .indexError := by
    intro α d f N l h1 h2 h3
    induction l with
    | nil => obtain ⟨t, ht, -⟩ := h3; simp at ht
    | cons t l ih =>
      by_cases htN : t < N
      · obtain ⟨a, ha⟩ | ha := h1 t (by simp) htN
        swap
        · simp only [List.map_cons, ha, fill]
        simp only [List.map_cons, ha, fill]
        refine ih (fun t ht => h1 t (by simp [ht])) (fun t ht => h2 t (by simp [ht])) ?_
        obtain ⟨t', ht', hN⟩ := h3
        rcases List.mem_cons.mp ht' with rfl | h
        · omega
        · exact ⟨t', h, hN⟩
      · simp only [List.map_cons, h2 t (by simp) (by omega), fill]
  rw [(readProps_ok hst hI).1, specProps]
  have : (cells cfg s.times u).2 = some .indexError := by
    unfold cells
    have hmem : ∃ t ∈ List.range s.times.length, (cfg.gens u).length ≤ t :=
      ⟨(cfg.gens u).length, by simpa using hg, le_rfl⟩
    cases cfg.calcDeriv with
    | true =>
      show (cellsD cfg s.times u).2 = _
      unfold cellsD
      refine herr _ _ (cfg.gens u).length _ ?_ ?_ hmem
      · intro t ht htN
        have ht' := List.mem_range.mp ht
        simp only [stepDeriv, List.getElem?_eq_getElem htN, List.getElem?_eq_getElem ht',
          List.getElem?_eq_getElem (hd ▸ ht' : t < (cfg.dirs s.times u).length)]
        rw [stepControls_ok cfg hm]
        simp only [bind, Except.bind, pure, Except.pure]
        split
        · exact Or.inr rfl
        · exact Or.inl ⟨_, rfl⟩
      · intro t ht htN
        simp [stepDeriv, List.getElem?_eq_none htN]
    | false =>
      show (cellsP cfg s.times u).2 = _
      unfold cellsP
      refine herr _ _ (cfg.gens u).length _ ?_ ?_ hmem
      · intro t ht htN
        have ht' := List.mem_range.mp ht
        simp only [stepPlain, List.getElem?_eq_getElem htN, List.getElem?_eq_getElem ht', exp_expProp _ hm]
        exact Or.inl ⟨_, rfl⟩
      · intro t ht htN
        simp [stepPlain, List.getElem?_eq_none htN]
  rw [this]
  rfl

end

/-! ## Concrete solvers -/

section Concrete
variable {n m : Type} [Fintype n] [DecidableEq n]

/-- `IdentityTF` without oversampling and padding, for any pulse. -/
def idTf (_ : List ℝ) (y : Pulse) : Except PyErr Pulse := .ok y

/-- `IdentityAmpFunc`. -/
noncomputable def idAmp (x : Pulse) : Except PyErr Raw :=
  open scoped Classical in
  if h : ∀ row ∈ x, row.length = (x.headD []).length then .ok ⟨2, (x.headD []).length, x, fun _ => h⟩
  else .error .valueError

/-- A Schroedinger solver with the default transfer and amplitude functions. -/
noncomputable def simpleCfg (L : Lapack n) (method : Method) (calcDeriv : Bool) (approx : ApproxMethod)
    (init : Matrix n m ℂ) (drift ctrl : List (Matrix n n ℂ)) : Cfg n m :=
  schroedCfg L method true calcDeriv approx init drift ctrl idTf id idAmp

theorem idAmp_ok (x : Pulse) (c : Nat) (hx : x ≠ []) (h : ∀ row ∈ x, row.length = c) :
    ∃ r : Raw, idAmp x = .ok r ∧ r.ndim = 2 ∧ r.cols = c ∧ r.rows = x := by
  have hc : (x.headD []).length = c := by
    cases x with
    | nil => exact absurd rfl hx
    | cons row x => exact h row (by simp)
  refine ⟨_, dif_pos (fun row hrow => (h row hrow).trans hc.symm), rfl, hc, rfl⟩

theorem ampsOf_some (cfg : Cfg n m) (τ : List ℝ) (y x : Pulse) (r : Raw) (h1 : cfg.tf τ y = .ok x)
    (h2 : cfg.amp x = .ok r) (h3 : r.ndim = 2) (h4 : r.rows.length = (cfg.xTimes τ).length)
    (h5 : r.cols = cfg.nCtrl) : ampsOf cfg τ y = some r.rows := by
  simp only [ampsOf, h1, h2]
  rw [if_pos ⟨h3, h4, h5⟩]

theorem ampsOf_none (cfg : Cfg n m) (τ : List ℝ) (y x : Pulse) (r : Raw) (h1 : cfg.tf τ y = .ok x)
    (h2 : cfg.amp x = .ok r) (h3 : r.rows.length ≠ (cfg.xTimes τ).length ∨ r.cols ≠ cfg.nCtrl) :
    ampsOf cfg τ y = none := by
  simp only [ampsOf, h1, h2]
  rw [if_neg]
  rintro ⟨-, h5, h6⟩
  rcases h3 with h | h
  · exact h h5
  · exact h h6

/-- The default transfer and amplitude function accept exactly the rectangular pulses with one row per time step and
one column per control. -/
theorem ampsOf_simple (L : Lapack n) (method : Method) (calcDeriv : Bool) (approx : ApproxMethod)
    (init : Matrix n m ℂ) (drift ctrl : List (Matrix n n ℂ)) (τ : List ℝ) (y : Pulse) (hy : y ≠ [])
    (hlen : y.length = τ.length) (hrow : ∀ row ∈ y, row.length = ctrl.length) :
    ampsOf (simpleCfg L method calcDeriv approx init drift ctrl) τ y = some y := by
  obtain ⟨r, h1, h2, h3, h4⟩ := idAmp_ok y ctrl.length hy hrow
  have := ampsOf_some (simpleCfg L method calcDeriv approx init drift ctrl) τ y y r rfl h1 h2
    (by rw [h4]; exact hlen) h3
  rw [this, h4]

theorem setPars_simple_bad (L : Lapack n) (method : Method) (calcDeriv : Bool) (approx : ApproxMethod)
    (init : Matrix n m ℂ) (drift ctrl : List (Matrix n n ℂ)) (τ : List ℝ) (y : Pulse) (c : Nat) (hy : y ≠ [])
    (hrow : ∀ row ∈ y, row.length = c) (hbad : y.length ≠ τ.length ∨ c ≠ ctrl.length) :
    ampsOf (simpleCfg L method calcDeriv approx init drift ctrl) τ y = none := by
  obtain ⟨r, h1, h2, h3, h4⟩ := idAmp_ok y c hy hrow
  refine ampsOf_none (simpleCfg L method calcDeriv approx init drift ctrl) τ y y r rfl h1 ?_
  rw [h4, h3]
  exact hbad

theorem stable_simple (L : Lapack n) (method : Method) (init : Matrix n m ℂ) (drift ctrl : List (Matrix n n ℂ)) :
    Stable (simpleCfg L method true .none init drift ctrl) := Or.inl ⟨rfl, rfl⟩

/-- The default configuration with `calculate_propagator_derivatives=False` is stable. -/
theorem stable_simple_false (L : Lapack n) (method : Method) (hm : method = .spectral ∨ method = .frechet)
    (init : Matrix n m ℂ) (drift ctrl : List (Matrix n n ℂ)) (hc : ctrl ≠ []) :
    Stable (simpleCfg L method false .none init drift ctrl) := by
  refine Or.inr (Or.inl ⟨rfl, hm, fun times u t Ds h => ?_⟩)
  simp only [simpleCfg, schroedCfg, schroedDirs] at h
  have := List.mem_of_getElem? h
  rw [List.mem_replicate] at this
  rw [this.2]
  simpa using hc

theorem setPars_none_iff (cfg : Cfg n m) (τ : List ℝ) (y : Pulse) :
    (setPars cfg y (construct cfg τ)).1 = none ↔ ∃ u, ampsOf cfg τ y = some u :=
  (setPars_new cfg y (construct cfg τ) (by simp [construct_facts]) rfl).1

/-- Hypotheses of `c29_history_partial` are met: two controls, two pulses, all reads. -/
example (L : Lapack (Fin 2)) (H₁ H₂ : Matrix (Fin 2) (Fin 2) ℂ) :
    let cfg : Cfg (Fin 2) (Fin 2) := simpleCfg L .frechet true .none 1 [0, 0] [H₁, H₂]
    ∃ s, execOk cfg [.set [[1, 2], [3, 4]], .set [[5, 6], [7, 8]]] (construct cfg [1, 1]) = some s ∧
      SameReads cfg s (fresh cfg [1, 1] [[5, 6], [7, 8]]) := by
  intro cfg
  have h1 : (setPars cfg [[1, 2], [3, 4]] (construct cfg [1, 1])).1 = none :=
    (setPars_none_iff cfg _ _).mpr ⟨_, ampsOf_simple L .frechet true .none 1 [0, 0] [H₁, H₂] [1, 1] _ (by simp) rfl
      (by simp)⟩
  have hne : (fresh cfg [1, 1] [[1, 2], [3, 4]]).optPars ≠ some [[5, 6], [7, 8]] := by
    rw [show (fresh cfg [1, 1] [[1, 2], [3, 4]]).optPars = some [[1, 2], [3, 4]] from
      (setPars_new cfg _ _ (by simp [construct_facts]) rfl).2.2.2.1]
    simp
  have h2 : (setPars cfg [[5, 6], [7, 8]] (fresh cfg [1, 1] [[1, 2], [3, 4]])).1 = none := by
    obtain ⟨a, -⟩ := setPars_new cfg [[5, 6], [7, 8]] (fresh cfg [1, 1] [[1, 2], [3, 4]]) hne rfl
    exact a.mpr ⟨_, ampsOf_simple L .frechet true .none 1 [0, 0] [H₁, H₂] [1, 1] _ (by simp) rfl (by simp)⟩
  have hex : execOk cfg [.set [[1, 2], [3, 4]], .set [[5, 6], [7, 8]]] (construct cfg [1, 1]) =
      some (setPars cfg [[5, 6], [7, 8]] (fresh cfg [1, 1] [[1, 2], [3, 4]])).2 := by
    have e1 : setPars cfg [[1, 2], [3, 4]] (construct cfg [1, 1]) = (none, fresh cfg [1, 1] [[1, 2], [3, 4]]) :=
      Prod.ext h1 rfl
    have e2 : setPars cfg [[5, 6], [7, 8]] (fresh cfg [1, 1] [[1, 2], [3, 4]]) =
        (none, (setPars cfg [[5, 6], [7, 8]] (fresh cfg [1, 1] [[1, 2], [3, 4]])).2) := Prod.ext h2 rfl
    simp only [execOk, Op.run]
    rw [e1]
    simp only
    rw [e2]
  exact ⟨_, hex, c29_history_partial cfg (stable_simple ..) [1, 1] _ (by simp) _ hex _ rfl⟩

/-- Hypotheses of `c29_propagators_partial` are met: first order approximation of exponentials, propagators without derivatives. -/
example (L : Lapack (Fin 2)) (H₁ H₂ : Matrix (Fin 2) (Fin 2) ℂ) :
    let cfg : Cfg (Fin 2) (Fin 2) := simpleCfg L .first false .none 1 [0, 0] [H₁, H₂]
    ∃ s, execOk cfg [.set [[1, 2], [3, 4]], .set [[5, 6], [7, 8]]] (construct cfg [1, 1]) = some s ∧
      (readRev cfg s).1 = (readRev cfg (fresh cfg [1, 1] [[5, 6], [7, 8]])).1 := by
  intro cfg
  have h1 : (setPars cfg [[1, 2], [3, 4]] (construct cfg [1, 1])).1 = none :=
    (setPars_none_iff cfg _ _).mpr ⟨_, ampsOf_simple L .first false .none 1 [0, 0] [H₁, H₂] [1, 1] _ (by simp) rfl
      (by simp)⟩
  have hne : (fresh cfg [1, 1] [[1, 2], [3, 4]]).optPars ≠ some [[5, 6], [7, 8]] := by
    rw [show (fresh cfg [1, 1] [[1, 2], [3, 4]]).optPars = some [[1, 2], [3, 4]] from
      (setPars_new cfg _ _ (by simp [construct_facts]) rfl).2.2.2.1]
    simp
  have h2 : (setPars cfg [[5, 6], [7, 8]] (fresh cfg [1, 1] [[1, 2], [3, 4]])).1 = none := by
    obtain ⟨a, -⟩ := setPars_new cfg [[5, 6], [7, 8]] (fresh cfg [1, 1] [[1, 2], [3, 4]]) hne rfl
    exact a.mpr ⟨_, ampsOf_simple L .first false .none 1 [0, 0] [H₁, H₂] [1, 1] _ (by simp) rfl (by simp)⟩
  have hex : execOk cfg [.set [[1, 2], [3, 4]], .set [[5, 6], [7, 8]]] (construct cfg [1, 1]) =
      some (setPars cfg [[5, 6], [7, 8]] (fresh cfg [1, 1] [[1, 2], [3, 4]])).2 := by
    have e1 : setPars cfg [[1, 2], [3, 4]] (construct cfg [1, 1]) = (none, fresh cfg [1, 1] [[1, 2], [3, 4]]) :=
      Prod.ext h1 rfl
    have e2 : setPars cfg [[5, 6], [7, 8]] (fresh cfg [1, 1] [[1, 2], [3, 4]]) =
        (none, (setPars cfg [[5, 6], [7, 8]] (fresh cfg [1, 1] [[1, 2], [3, 4]])).2) := Prod.ext h2 rfl
    simp only [execOk, Op.run]
    rw [e1]
    simp only
    rw [e2]
  exact ⟨_, hex, (c29_propagators_partial cfg [1, 1] _ (by simp) (by simp) _ hex _ rfl).2.2⟩

/-- Witness for `c30_violated`: one control, one time step; the rejected pulse has two columns. -/
example (L : Lapack (Fin 2)) (H₀ H₁ : Matrix (Fin 2) (Fin 2) ℂ) :
    let cfg : Cfg (Fin 2) (Fin 2) := simpleCfg L .frechet true .none 1 [H₀] [H₁]
    (setPars cfg [[1]] (construct cfg [1])).1 = none ∧ (setPars cfg [[1, 2]] (construct cfg [1])).1 ≠ none := by
  refine ⟨(setPars_none_iff _ _ _).mpr ⟨_, ampsOf_simple L .frechet true .none 1 [H₀] [H₁] [1] _ (by simp) rfl
    (by simp)⟩, fun h => ?_⟩
  obtain ⟨u, hu⟩ := (setPars_none_iff _ _ _).mp h
  rw [setPars_simple_bad L .frechet true .none 1 [H₀] [H₁] [1] [[1, 2]] 2 (by simp) (by simp) (by simp)] at hu
  simp at hu

/-- Witness for C31: a pulse of two time steps is still accepted after the grid was reduced to one step, while a new
solver rejects it. -/
theorem c31_violated (L : Lapack n) (H₀ H₁ : Matrix n n ℂ) (init : Matrix n m ℂ) :
    let cfg : Cfg n m := simpleCfg L .frechet true .none init [H₀, H₀] [H₁]
    (setPars cfg [[1], [2]] (setTimes cfg [1] (fresh cfg [1, 1] [[1], [2]]))).1 = none ∧
    (setPars cfg [[1], [2]] (construct cfg [1])).1 ≠ none := by
  intro cfg
  constructor
  · have h := ampsOf_simple L .frechet true .none init [H₀, H₀] [H₁] [1, 1] [[1], [2]] (by simp) rfl (by simp)
    rw [(c31_same_pulse_stale cfg (stable_simple ..) [1, 1] [1] _ _ h).1]
  · intro h
    obtain ⟨u, hu⟩ := (setPars_none_iff _ _ _).mp h
    rw [setPars_simple_bad L .frechet true .none init [H₀, H₀] [H₁] [1] [[1], [2]] 1 (by simp) (by simp)
      (by simp)] at hu
    simp at hu

/-- **C31** is violated for a longer grid: the drift Hamiltonian is repeated for the grid known at construction
only. A solver built with a single drift operator for one step cannot propagate on a grid of two steps, while a
solver newly constructed on that grid can. -/
theorem c31_violated_longer_grid (L : Lapack n) (H₀ H₁ : Matrix n n ℂ) (init : Matrix n m ℂ) :
    ∃ d₁ d₂, constructDrift [H₀] 1 = .ok d₁ ∧ constructDrift [H₀] 2 = .ok d₂ ∧
      let cfg : Cfg n m := simpleCfg L .frechet true .none init d₁ [H₁]
      let cfg' : Cfg n m := simpleCfg L .frechet true .none init d₂ [H₁]
      (setPars cfg [[1], [2]] (setTimes cfg [1, 1] (construct cfg [1]))).1 = none ∧
      (readProps cfg (setPars cfg [[1], [2]] (setTimes cfg [1, 1] (construct cfg [1]))).2).1 = .error .indexError ∧
      ∃ v, (readProps cfg' (fresh cfg' [1, 1] [[1], [2]])).1 = .ok v := by
  refine ⟨[H₀], [H₀, H₀], rfl, rfl, ?_⟩
  intro cfg cfg'
  have hst : Stable cfg := stable_simple ..
  have hst' : Stable cfg' := stable_simple ..
  have hu := ampsOf_simple L .frechet true .none init [H₀] [H₁] [1, 1] [[1], [2]] (by simp) rfl (by simp)
  have hu' := ampsOf_simple L .frechet true .none init [H₀, H₀] [H₁] [1, 1] [[1], [2]] (by simp) rfl (by simp)
  obtain ⟨a, -, c, -, e, -⟩ := setPars_new cfg [[1], [2]] (setTimes cfg [1, 1] (construct cfg [1]))
    (by simp [setTimes, reset, construct_facts]) rfl
  refine ⟨a.mpr ⟨_, hu⟩, ?_, ?_⟩
  · have hI := e _ hu
    refine short_drift_raises cfg hst (by simp [cfg, simpleCfg, schroedCfg]) _ _ hI ?_ ?_
    · rw [c]
      show (schroedGens [H₀] [H₁] [[1], [2]]).length < _
      rw [schroedGens_length]
      simp [setTimes, reset, cfg, simpleCfg, schroedCfg]
    · exact List.length_replicate
  · obtain ⟨hF, hFt⟩ := fresh_inv cfg' [1, 1] _ _ hu'
    rw [(readProps_ok hst' hF).1, specProps]
    rw [hFt, cells_ok cfg' (by simp [cfg', simpleCfg, schroedCfg])]
    · exact ⟨_, rfl⟩
    · show 2 ≤ (schroedGens [H₀, H₀] [H₁] [[1], [2]]).length
      rw [schroedGens_length]
      rfl
    · intro t ht
      refine ⟨[(-Complex.I) • H₁], ?_, by simp, by simp [cfg', simpleCfg, schroedCfg]⟩
      show (List.replicate 2 [(-Complex.I) • H₁])[t]? = _
      rw [List.getElem?_replicate, if_pos (by exact ht)]

/-! ## C78: a failed computation -/

/-- **C78** is violated: with an unknown exponential method the first read of the propagators raises, the second one
returns a list without propagators. -/
theorem c78_violated (L : Lapack n) (H₀ H₁ : Matrix n n ℂ) (init : Matrix n m ℂ) (y : Pulse) (hy : y.length = 1)
    (hrow : ∀ row ∈ y, row.length = 1) :
    let cfg : Cfg n m := simpleCfg L .other true .none init [H₀] [H₁]
    (setPars cfg y (construct cfg [1])).1 = none ∧
    (readProps cfg (fresh cfg [1] y)).1 = .error .notImplementedError ∧
    (readProps cfg (readProps cfg (fresh cfg [1] y)).2).1 = .ok [none] := by
  intro cfg
  have hu := ampsOf_simple L .other true .none init [H₀] [H₁] [1] y (by rintro rfl; simp at hy) hy hrow
  obtain ⟨hF, hFt⟩ := fresh_inv cfg [1] y y hu
  have hp : (fresh cfg [1] y).prop = none := by
    cases h : (fresh cfg [1] y).prop with
    | none => rfl
    | some p =>
      exfalso
      unfold fresh setPars at h
      rw [if_neg (by simp [construct_facts])] at h
      simp only at h
      split at h
      · simp [reset] at h
      · split at h
        · simp [reset] at h
        · split at h <;> simp [reset] at h
  have hG : ∃ G, cfg.gens y = [G] := by
    have : (cfg.gens y).length = 1 := schroedGens_length _ _ _
    exact List.length_eq_one_iff.mp this
  obtain ⟨G, hG⟩ := hG
  have hcells : cellsD cfg [1] y = ([(none, [])], some .notImplementedError) := by
    unfold cellsD
    simp only [List.length_singleton, List.range_one, List.map_cons, List.map_nil]
    have : stepDeriv cfg (cfg.gens y) (cfg.dirs [1] y) [1] 0 = .error .notImplementedError := by
      rw [hG]
      exact stepControls_other cfg rfl G 1 ((-Complex.I) • H₁) [] none
    rw [this]
    rfl
  have hcp : computePropagation cfg true (fresh cfg [1] y) = _ := computePropagation_true hF
  rw [hFt, show cfg.xTimes [1] = [1] from rfl, hcells] at hcp
  have hr : readProps cfg (fresh cfg [1] y) = (.error .notImplementedError,
      (computePropagation cfg true (fresh cfg [1] y)).2) := by
    rw [readProps, hp]
    simp only
    rw [show cfg.calcDeriv = true from rfl, hcp]
  refine ⟨(setPars_none_iff _ _ _).mpr ⟨_, hu⟩, by rw [hr], ?_⟩
  rw [hr, hcp]
  rfl

/-- **C78** (partial) After any history, including failed computations, setting a different pulse gives the results
(or exceptions) of a new solver. -/
theorem c78_recovers_partial (cfg : Cfg n m) (τ : List ℝ) (ops : List Op) (y : Pulse)
    (hy : (exec cfg ops (construct cfg τ)).optPars ≠ some y) :
    let s := exec cfg ops (construct cfg τ)
    (setPars cfg y s).1 = none → SameReads cfg (setPars cfg y s).2 (fresh cfg s.tau y) :=
  fun h => (set_new_pulse cfg τ ops y hy).2 h

/-! ## C79: an empty drift list -/

/-- **C79** is violated: the constructor accepts an empty list of drift Hamiltonians ("no entry at all"), but every
read of the propagators then raises IndexError. -/
theorem c79_violated (L : Lapack n) (H₁ : Matrix n n ℂ) (init : Matrix n m ℂ) (y : Pulse) (τ : List ℝ) (hτ : τ ≠ [])
    (hy : y.length = τ.length) (hrow : ∀ row ∈ y, row.length = 1) :
    ∃ d, constructDrift ([] : List (Matrix n n ℂ)) τ.length = .ok d ∧
      let cfg : Cfg n m := simpleCfg L .frechet true .none init d [H₁]
      (setPars cfg y (construct cfg τ)).1 = none ∧ (readProps cfg (fresh cfg τ y)).1 = .error .indexError := by
  refine ⟨[], by simp [constructDrift], ?_⟩
  intro cfg
  have hyne : y ≠ [] := by
    rintro rfl
    exact hτ (List.length_eq_zero_iff.mp hy.symm)
  have hu := ampsOf_simple L .frechet true .none init [] [H₁] τ y hyne hy hrow
  obtain ⟨hF, hFt⟩ := fresh_inv cfg τ y y hu
  refine ⟨(setPars_none_iff _ _ _).mpr ⟨_, hu⟩, ?_⟩
  refine short_drift_raises cfg (stable_simple ..) (by simp [cfg, simpleCfg, schroedCfg]) y _ hF ?_ ?_
  · rw [hFt]
    show (schroedGens [] [H₁] y).length < τ.length
    rw [schroedGens_length]
    exact List.length_pos_of_ne_nil hτ
  · exact List.length_replicate

end Concrete
end Verif.Solver
