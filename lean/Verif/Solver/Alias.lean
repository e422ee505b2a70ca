import Verif.Solver.CacheThms

/-!
# C130: the pulse a solver was given and the array it came in

`set_optimization_parameters` keeps a copy of its argument in `_opt_pars` (solver_algorithms.py:377), but `transferred_parameters` and
`_ctrl_amps` are what the transfer and the amplitude function return (380, 385-386, 403).  `IdentityTF.__call__`
(transfer_function.py:569-571) and `IdentityAmpFunc.__call__` (amplitude_functions.py:130-132), the defaults, return their argument
itself.  The model adds the arrays of the caller to the solver of `Verif.Solver.Model`.
-/

namespace Verif.Solver
open Verif Verif.Operator Matrix

section
variable {n m : Type} [Fintype n] [DecidableEq n]

/-! ## Model -/

/-- Which functions return the array they are given; all others return a new array. -/
structure Sharing (cfg : Cfg n m) where
  tfId : Bool
  ampId : Bool
  tf : tfId = true → ∀ τ y x, cfg.tf τ y = .ok x → x = y
  amp : ampId = true → ∀ x r, cfg.amp x = .ok r → r.rows = x

/-- The arrays of the caller, the solver, and which of the arrays the attributes `transferred_parameters` and `_ctrl_amps` are. -/
structure ASt (n m : Type) where
  arrays : List Pulse
  s : St n m
  xLink : Option Nat
  aLink : Option Nat

/-- `y[t, c] = z`. -/
def setEntry (t c : Nat) (z : ℝ) (y : Pulse) : Pulse := y.modify t fun row => row.set c z

open scoped Classical in
/-- `solver.set_optimization_parameters(arrays[a])`, solver_algorithms.py:874-878 and 358-404. -/
noncomputable def setFrom (cfg : Cfg n m) (sh : Sharing cfg) (a : Nat) (st : ASt n m) : Option PyErr × ASt n m :=
  match st.arrays[a]? with
  | none => (some .indexError, st)
  | some y =>
    if st.s.optPars = some y then (none, st)
    else
      let r := setPars cfg y st.s
      (r.1, { arrays := st.arrays, s := r.2,
              xLink := match cfg.tf st.s.tau y with
                | .ok _ => if sh.tfId then some a else none
                | .error _ => st.xLink
              aLink := match r.1 with
                | none => if sh.tfId && sh.ampId then some a else none
                | some _ => st.aLink })

/-- `arrays[a][t, c] = z` by the caller: attributes which are this array change with it. -/
def writeEntry (a t c : Nat) (z : ℝ) (st : ASt n m) : ASt n m :=
  let arrays := st.arrays.modify a (setEntry t c z)
  { st with arrays := arrays,
            s := { st.s with xPars := if st.xLink = some a then arrays[a]? else st.s.xPars,
                             amps := if st.aLink = some a then arrays[a]? else st.s.amps } }

/-- What the caller does: hand over one of the arrays, change an entry of an array, read a result. -/
inductive AOp where
  | set (a : Nat)
  | write (a t c : Nat) (z : ℝ)
  | props | fwd | rev | deriv

/-- Reading a result. -/
noncomputable def readOp (cfg : Cfg n m) (op : Op) (st : ASt n m) : Option PyErr × ASt n m :=
  ((op.run cfg st.s).1, { st with s := (op.run cfg st.s).2 })

/-- One step of the caller. -/
noncomputable def AOp.run (cfg : Cfg n m) (sh : Sharing cfg) : AOp → ASt n m → Option PyErr × ASt n m
  | .set a, st => setFrom cfg sh a st
  | .write a t c z, st => (none, writeEntry a t c z st)
  | .props, st => readOp cfg .props st
  | .fwd, st => readOp cfg .fwd st
  | .rev, st => readOp cfg .rev st
  | .deriv, st => readOp cfg .deriv st

/-- A program of the caller; `none` if one of its steps raises. -/
noncomputable def aExec (cfg : Cfg n m) (sh : Sharing cfg) : List AOp → ASt n m → Option (ASt n m)
  | [], st => some st
  | op :: ops, st => match op.run cfg sh st with
    | (none, st) => aExec cfg sh ops st
    | (some _, _) => none

/-- A new solver and the arrays of the caller. -/
def aNew (cfg : Cfg n m) (τ : List ℝ) (arrays : List Pulse) : ASt n m := ⟨arrays, construct cfg τ, none, none⟩

/-! ## Specification -/

/-- The pulse which was in the array handed over last, when it was handed over. -/
def handed : List AOp → List Pulse → Option Pulse → Option Pulse
  | [], _, y => y
  | .set a :: ops, A, _ => handed ops A A[a]?
  | .write a t c z :: ops, A, y => handed ops (A.modify a (setEntry t c z)) y
  | _ :: ops, A, y => handed ops A y

/-- Whenever a result is read (and at the end), the array handed over last still holds the pulse it held then.  Handing over the
pulse the solver already has counts for nothing: `h` is the array which brought it. -/
def Intact : List AOp → List Pulse → Option (Nat × Pulse) → Prop
  | [], A, h => ∀ a y, h = some (a, y) → A[a]? = some y
  | .set a :: ops, A, h => ∀ y, A[a]? = some y →
      (h.map Prod.snd = some y → Intact ops A h) ∧ (h.map Prod.snd ≠ some y → Intact ops A (some (a, y)))
  | .write a t c z :: ops, A, h => Intact ops (A.modify a (setEntry t c z)) h
  | _ :: ops, A, h => (∀ a y, h = some (a, y) → A[a]? = some y) ∧ Intact ops A h

/-! ## C130 -/

/-- The invariant does not depend on the transferred parameters. -/
theorem Inv.congr {cfg : Cfg n m} {u : Pulse} {s s' : St n m} (h : Inv cfg u s) (h0 : s'.amps = some u) (h1 : s'.times = s.times)
    (h2 : s'.dynGen = s.dynGen) (h3 : s'.prop = s.prop) (h4 : s'.fwd = s.fwd) (h5 : s'.rev = s.rev) (h6 : s'.deriv = s.deriv) :
    Inv cfg u s' :=
  ⟨h0, by rw [h2]; exact h.dyn, by rw [h3, h1]; exact h.prop, by rw [h4, h1]; exact h.fwd, by rw [h5, h1]; exact h.rev,
    by rw [h6, h1]; exact h.deriv⟩

theorem setFrom_eq (cfg : Cfg n m) (sh : Sharing cfg) {a : Nat} {st st' : ASt n m} (h : setFrom cfg sh a st = (none, st')) :
    ∃ y, st.arrays[a]? = some y ∧ setPars cfg y st.s = (none, st'.s) ∧ st'.arrays = st.arrays ∧
      (st.s.optPars = some y → st' = st) ∧
      (st.s.optPars ≠ some y → st'.aLink = if sh.tfId && sh.ampId then some a else none) := by
  unfold setFrom at h
  split at h
  · simp at h
  · rename_i y hy
    refine ⟨y, hy, ?_⟩
    by_cases ho : st.s.optPars = some y
    · rw [if_pos ho] at h
      simp only [Prod.mk.injEq, true_and] at h
      subst h
      exact ⟨by rw [setPars, if_pos ho], rfl, fun _ => rfl, fun h => absurd ho h⟩
    · rw [if_neg ho] at h
      simp only [Prod.mk.injEq] at h
      obtain ⟨h1, rfl⟩ := h
      refine ⟨Prod.ext h1 rfl, rfl, fun h => absurd h ho, fun _ => ?_⟩
      simp only [h1]

theorem readOp_eq (cfg : Cfg n m) (op : Op) {st st' : ASt n m} (h : readOp cfg op st = (none, st')) :
    op.run cfg st.s = (none, st'.s) ∧ st'.arrays = st.arrays ∧ st'.aLink = st.aLink := by
  simp only [readOp, Prod.mk.injEq] at h
  obtain ⟨h1, rfl⟩ := h
  exact ⟨Prod.ext h1 rfl, rfl, rfl⟩

theorem own_exec {cfg : Cfg n m} (hst : Stable cfg) (sh : Sharing cfg) (hsh : sh.tfId = false ∨ sh.ampId = false) {τ : List ℝ}
    (ops : List AOp) {oy : Option Pulse} {st st' : ASt n m} (h : Tracked cfg τ oy st.s) (hl : st.aLink = none)
    (hrun : aExec cfg sh ops st = some st') : Tracked cfg τ (handed ops st.arrays oy) st'.s := by
  induction ops generalizing st oy with
  | nil => simp only [aExec, Option.some.injEq] at hrun; subst hrun; exact h
  | cons op ops ih =>
    simp only [aExec] at hrun
    split at hrun
    · rename_i st1 heq
      have hread : ∀ o : Op, (∀ y, o ≠ .set y) → (∀ τ', o ≠ .times τ') → readOp cfg o st = (none, st1) →
          Tracked cfg τ (handed ops st.arrays oy) st'.s := by
        intro o h1 h2 h3
        obtain ⟨h4, h5, h6⟩ := readOp_eq cfg o h3
        have h7 := tracked_step hst h o h2 h4
        have h8 : lastPulse [o] oy = oy := by cases o <;> first | rfl | exact absurd rfl (h1 _)
        rw [h8] at h7
        have := ih h7 (by rw [h6, hl]) hrun
        rwa [h5] at this
      cases op with
      | props => exact hread .props nofun nofun heq
      | fwd => exact hread .fwd nofun nofun heq
      | rev => exact hread .rev nofun nofun heq
      | deriv => exact hread .deriv nofun nofun heq
      | set a =>
        obtain ⟨y, h1, h2, h3, h4, h5⟩ := setFrom_eq cfg sh heq
        have h6 := tracked_step hst h (.set y) nofun h2
        have h7 : st1.aLink = none := by
          by_cases ho : st.s.optPars = some y
          · rw [h4 ho]; exact hl
          · rw [h5 ho]; rcases hsh with h | h <;> simp [h]
        have := ih h6 h7 hrun
        rw [h3] at this
        simpa [handed, h1, lastPulse] using this
      | write a t c z =>
        simp only [AOp.run, Prod.mk.injEq, true_and] at heq
        subst heq
        refine ih (st := writeEntry a t c z st) ?_ hl hrun
        obtain ⟨h1, h2, h3, h4⟩ := h
        refine ⟨h1, h2, h3, ?_⟩
        cases oy with
        | none =>
          obtain ⟨ha, hb⟩ := h4
          exact ⟨by simp [writeEntry, hl, ha], hb⟩
        | some y =>
          obtain ⟨u, hu, hI⟩ := h4
          exact ⟨u, hu, hI.congr (by simp [writeEntry, hl, hI.amps]) rfl rfl rfl rfl rfl rfl⟩
    · simp at hrun

/-- **C130** (partial): if the transfer or the amplitude function returns a new array, what the caller does to the arrays afterwards has
no influence: after every program without exception, the results are those of a new solver for the pulse handed over last, as it was at
that time.  Missing: the default functions (`c130_violated`). -/
theorem c130_own_partial (cfg : Cfg n m) (hst : Stable cfg) (sh : Sharing cfg) (hsh : sh.tfId = false ∨ sh.ampId = false) (τ : List ℝ)
    (arrays : List Pulse) (ops : List AOp) (st : ASt n m) (hrun : aExec cfg sh ops (aNew cfg τ arrays) = some st) (y : Pulse)
    (hy : handed ops arrays none = some y) : SameReads cfg st.s (fresh cfg τ y) := by
  have h0 : Tracked cfg τ none (aNew cfg τ arrays).s := ⟨rfl, rfl, rfl, rfl, rfl, rfl, rfl, rfl⟩
  have h := own_exec hst sh hsh ops h0 rfl hrun
  rw [show (aNew cfg τ arrays).arrays = arrays from rfl, hy] at h
  obtain ⟨-, h2, -, u, hu, hI⟩ := h
  obtain ⟨hF, hFt⟩ := fresh_inv cfg τ y u hu
  exact hI.sameReads hst hF (by rw [h2, hFt])

omit [Fintype n] [DecidableEq n] in
theorem sharing_amps {cfg : Cfg n m} (sh : Sharing cfg) (h1 : sh.tfId = true) (h2 : sh.ampId = true) {τ : List ℝ} {y u : Pulse}
    (h : ampsOf cfg τ y = some u) : u = y := by
  unfold ampsOf at h
  split at h
  · simp at h
  · rename_i x hx
    split at h
    · simp at h
    · rename_i r hr
      split at h
      · simp only [Option.some.injEq] at h
        rw [← h, sh.amp h2 x r hr, sh.tf h1 τ y x hx]
      · simp at h

/-- What is known between two steps when the amplitudes are an array of the caller: the caches belong to the pulse as it was handed
over, the amplitudes are what the array holds now. -/
def Shared (cfg : Cfg n m) (τ : List ℝ) (h : Option (Nat × Pulse)) (st : ASt n m) : Prop :=
  st.s.tau = τ ∧ st.s.times = cfg.xTimes τ ∧ st.s.optPars = h.map Prod.snd ∧
    match h with
    | none => st.aLink = none ∧ st.s.amps = none ∧ st.s.prop = none ∧ st.s.fwd = none ∧ st.s.rev = none ∧ st.s.deriv = none
    | some (a, y) => st.aLink = some a ∧ st.s.amps = st.arrays[a]? ∧ (∃ v, st.arrays[a]? = some v) ∧ ampsOf cfg τ y = some y ∧
        Inv cfg y { st.s with amps := some y }

theorem shared_exec {cfg : Cfg n m} (hst : Stable cfg) (sh : Sharing cfg) (h1 : sh.tfId = true) (h2 : sh.ampId = true) {τ : List ℝ}
    (ops : List AOp) {h : Option (Nat × Pulse)} {st st' : ASt n m} (hS : Shared cfg τ h st) (hI : Intact ops st.arrays h)
    (hrun : aExec cfg sh ops st = some st') :
    Tracked cfg τ (handed ops st.arrays (h.map Prod.snd)) st'.s := by
  have tracked : ∀ {h : Option (Nat × Pulse)} {st : ASt n m}, Shared cfg τ h st → (∀ a y, h = some (a, y) → st.arrays[a]? = some y) →
      Tracked cfg τ (h.map Prod.snd) st.s := by
    intro h st hS hA
    obtain ⟨a1, a2, a3, a4⟩ := hS
    refine ⟨a1, a2, a3, ?_⟩
    cases h with
    | none => exact a4.2
    | some p =>
      obtain ⟨a, y⟩ := p
      obtain ⟨b1, b2, -, b4, b5⟩ := a4
      exact ⟨y, b4, b5.congr (by rw [b2, hA a y rfl]) rfl rfl rfl rfl rfl rfl⟩
  induction ops generalizing st h with
  | nil =>
    simp only [aExec, Option.some.injEq] at hrun
    subst hrun
    exact tracked hS hI
  | cons op ops ih =>
    simp only [aExec] at hrun
    split at hrun
    · rename_i st1 heq
      have hread : ∀ o : Op, (∀ y, o ≠ .set y) → (∀ τ', o ≠ .times τ') → (∀ a y, h = some (a, y) → st.arrays[a]? = some y) →
          Intact ops st.arrays h → readOp cfg o st = (none, st1) → Tracked cfg τ (handed ops st.arrays (h.map Prod.snd)) st'.s := by
        intro o c1 c2 hA hI' c3
        obtain ⟨c4, c5, c6⟩ := readOp_eq cfg o c3
        have c7 := tracked_step hst (tracked hS hA) o c2 c4
        have c8 : lastPulse [o] (h.map Prod.snd) = h.map Prod.snd := by cases o <;> first | rfl | exact absurd rfl (c1 _)
        rw [c8] at c7
        have c9 : Shared cfg τ h st1 := by
          obtain ⟨d1, d2, d3, d4⟩ := c7
          refine ⟨d1, d2, d3, ?_⟩
          cases h with
          | none => exact ⟨by rw [c6]; exact hS.2.2.2.1, d4⟩
          | some p =>
            obtain ⟨a, y⟩ := p
            obtain ⟨-, -, -, b1, b2, b3, b4, b5⟩ := hS
            obtain ⟨u, e1, e2⟩ := d4
            have e3 : u = y := sharing_amps sh h1 h2 e1
            subst e3
            exact ⟨by rw [c6]; exact b1, by rw [c5, hA a u rfl]; exact e2.amps, by rw [c5]; exact b3, b4,
              e2.congr rfl rfl rfl rfl rfl rfl rfl⟩
        have := ih c9 (by rw [c5]; exact hI') hrun
        rwa [c5] at this
      cases op with
      | props => exact hread .props nofun nofun hI.1 hI.2 heq
      | fwd => exact hread .fwd nofun nofun hI.1 hI.2 heq
      | rev => exact hread .rev nofun nofun hI.1 hI.2 heq
      | deriv => exact hread .deriv nofun nofun hI.1 hI.2 heq
      | set a =>
        obtain ⟨y, c1, c2, c3, c4, c5⟩ := setFrom_eq cfg sh heq
        obtain ⟨i1, i2⟩ := hI y c1
        by_cases ho : st.s.optPars = some y
        · have hh : h.map Prod.snd = some y := hS.2.2.1 ▸ ho
          have hs := c4 ho
          subst hs
          have := ih hS (i1 hh) hrun
          rw [hh] at this
          simpa [handed, c1] using this
        · have hh : h.map Prod.snd ≠ some y := hS.2.2.1 ▸ ho
          obtain ⟨a1, a2, a3, a4, a5, -⟩ := setPars_new cfg y st.s ho (by rw [hS.2.1, hS.1])
          rw [c2] at a1 a2 a3 a4 a5
          obtain ⟨u, hu⟩ := a1.mp rfl
          have hy : u = y := sharing_amps sh h1 h2 hu
          subst hy
          have hJ := a5 u hu
          have hS1 : Shared cfg τ (some (a, u)) st1 :=
            ⟨a2.trans hS.1, a3.trans hS.2.1, a4, by rw [c5 ho, h1, h2]; rfl, by rw [c3, c1]; exact hJ.amps, ⟨u, by rw [c3, c1]⟩, hS.1 ▸ hu,
              hJ.congr rfl rfl rfl rfl rfl rfl rfl⟩
          have := ih hS1 (by rw [c3]; exact i2 hh) hrun
          rw [c3] at this
          simpa [handed, c1] using this
      | write a t c z =>
        simp only [AOp.run, Prod.mk.injEq, true_and] at heq
        subst heq
        refine ih (h := h) (st := writeEntry a t c z st) ?_ hI hrun
        obtain ⟨a1, a2, a3, a4⟩ := hS
        refine ⟨a1, a2, a3, ?_⟩
        cases h with
        | none =>
          obtain ⟨b1, b2, b3⟩ := a4
          exact ⟨b1, by simp [writeEntry, b1, b2], b3⟩
        | some p =>
          obtain ⟨a', y⟩ := p
          obtain ⟨b1, b2, ⟨v, b3⟩, b4, b5⟩ := a4
          refine ⟨b1, ?_, ?_, b4, b5.congr rfl rfl rfl rfl rfl rfl rfl⟩
          · by_cases hp : a' = a
            · subst hp
              simp [writeEntry, b1]
            · have : ¬ a = a' := fun h => hp h.symm
              simp [writeEntry, b1, hp, b2, List.getElem?_modify, this]
          · simp [writeEntry, List.getElem?_modify, b3]
    · simp at hrun

/-- **C130** (partial): with functions which return their argument, the results are those of the pulse handed over last, as long as the
array which brought it still holds this pulse whenever a result is read. -/
theorem c130_shared_partial (cfg : Cfg n m) (hst : Stable cfg) (sh : Sharing cfg) (h1 : sh.tfId = true) (h2 : sh.ampId = true) (τ : List ℝ)
    (arrays : List Pulse) (ops : List AOp) (hI : Intact ops arrays none) (st : ASt n m)
    (hrun : aExec cfg sh ops (aNew cfg τ arrays) = some st) (y : Pulse) (hy : handed ops arrays none = some y) :
    SameReads cfg st.s (fresh cfg τ y) := by
  have h0 : Shared cfg τ none (aNew cfg τ arrays) := ⟨rfl, rfl, rfl, rfl, rfl, rfl, rfl, rfl, rfl⟩
  have h := shared_exec hst sh h1 h2 ops h0 hI hrun
  rw [show (aNew cfg τ arrays).arrays = arrays from rfl, Option.map_none, hy] at h
  obtain ⟨-, e2, -, u, hu, hI⟩ := h
  obtain ⟨hF, hFt⟩ := fresh_inv cfg τ y u hu
  exact hI.sameReads hst hF (by rw [e2, hFt])

theorem fresh_empty (cfg : Cfg n m) (τ : List ℝ) (y : Pulse) :
    (fresh cfg τ y).dynGen = none ∧ (fresh cfg τ y).prop = none ∧ (fresh cfg τ y).deriv = none ∧ (fresh cfg τ y).fwd = none ∧
      (fresh cfg τ y).rev = none := by
  unfold fresh setPars
  rw [if_neg (by simp [construct_facts])]
  simp only
  split
  · exact ⟨rfl, rfl, rfl, rfl, rfl⟩
  · split
    · exact ⟨rfl, rfl, rfl, rfl, rfl⟩
    · split <;> exact ⟨rfl, rfl, rfl, rfl, rfl⟩

/-- Handing over an array with an acceptable pulse succeeds. -/
theorem setFrom_ok (cfg : Cfg n m) (sh : Sharing cfg) (a : Nat) (st : ASt n m) (y u : Pulse) (hy : st.arrays[a]? = some y)
    (ht : st.s.times = cfg.xTimes st.s.tau) (hu : ampsOf cfg st.s.tau y = some u) :
    ∃ st', setFrom cfg sh a st = (none, st') ∧ st'.arrays = st.arrays ∧ st'.s.tau = st.s.tau ∧ st'.s.times = st.s.times := by
  by_cases ho : st.s.optPars = some y
  · exact ⟨st, by simp only [setFrom, hy, ho, if_true], rfl, rfl, rfl⟩
  · obtain ⟨a1, a2, a3, -⟩ := setPars_new cfg y st.s ho ht
    have hn := a1.mpr ⟨u, hu⟩
    refine ⟨⟨st.arrays, (setPars cfg y st.s).2, _, _⟩, by simp only [setFrom, hy, ho, if_false, hn]; rfl, rfl, a2, a3⟩

/-- Without a protecting copy, for every solver: the results read after an entry of the array was overwritten are those of the changed
pulse, and stay so if the pulse is handed over again in another array. -/
theorem shared_follows (cfg : Cfg n m) (hst : Stable cfg) (sh : Sharing cfg) (h1 : sh.tfId = true) (h2 : sh.ampId = true) (τ : List ℝ)
    (y : Pulse) (t c : Nat) (z : ℝ) (hy : ampsOf cfg τ y = some y) (hz : ampsOf cfg τ (setEntry t c z y) = some (setEntry t c z y)) :
    ∃ st, aExec cfg sh [.set 0, .write 0 t c z] (aNew cfg τ [y, y]) = some st ∧
      aExec cfg sh [.set 0, .write 0 t c z, .set 1] (aNew cfg τ [y, y]) = some st ∧
      SameReads cfg st.s (fresh cfg τ (setEntry t c z y)) := by
  obtain ⟨a1, a2, a3, a4, a5, -⟩ := setPars_new cfg y (construct cfg τ) (by simp [construct_facts]) rfl
  have hn : (setPars cfg y (construct cfg τ)).1 = none := a1.mpr ⟨y, hy⟩
  obtain ⟨x, hx⟩ : ∃ x, cfg.tf τ y = .ok x := by
    unfold ampsOf at hy
    cases h : cfg.tf τ y with
    | error e => simp [h] at hy
    | ok x => exact ⟨x, rfl⟩
  have hset : setFrom cfg sh 0 (aNew cfg τ [y, y]) = (none, ⟨[y, y], fresh cfg τ y, some 0, some 0⟩) := by
    have : (aNew cfg τ [y, y]).s.optPars ≠ some y := by simp [aNew, construct_facts]
    simp only [setFrom, aNew, List.getElem?_cons_zero, construct_facts, reduceCtorEq, if_false, hn, hx, h1, h2, fresh, Bool.and_self, if_true]
  obtain ⟨st, hst1⟩ : ∃ st, st = writeEntry 0 t c z ⟨[y, y], fresh cfg τ y, some 0, some 0⟩ := ⟨_, rfl⟩
  have hopt : st.s.optPars = some y := by rw [hst1]; exact a4
  have harr : st.arrays[1]? = some y := by rw [hst1]; rfl
  have hrun : aExec cfg sh [.set 0, .write 0 t c z] (aNew cfg τ [y, y]) = some st := by
    simp only [aExec, AOp.run, hset, hst1]
  refine ⟨st, hrun, ?_, ?_⟩
  · have : setFrom cfg sh 1 st = (none, st) := by simp only [setFrom, harr, hopt, if_true]
    simp only [aExec, AOp.run, hset, ← hst1, this]
  · obtain ⟨hF, hFt⟩ := fresh_inv cfg τ _ _ hz
    obtain ⟨c5, c1, c2, c3, c4⟩ := fresh_empty cfg τ y
    have hI : Inv cfg (setEntry t c z y) st.s := by
      rw [hst1]
      exact ⟨rfl, fun g hg => by simp [writeEntry, c5] at hg, fun g hg => by simp [writeEntry, c1] at hg,
        fun g hg => by simp [writeEntry, c3] at hg, fun g hg => by simp [writeEntry, c4] at hg, fun g hg => by simp [writeEntry, c2] at hg⟩
    refine hI.sameReads hst hF ?_
    rw [hFt, hst1]
    exact a3

end

/-! ## Concrete solvers -/

section Concrete
variable {n m : Type} [Fintype n] [DecidableEq n]

/-- The default transfer and amplitude functions hand the array of the caller through. -/
noncomputable def simpleSharing (L : Lapack n) (method : Method) (calcDeriv : Bool) (approx : ApproxMethod) (init : Matrix n m ℂ)
    (drift ctrl : List (Matrix n n ℂ)) : Sharing (simpleCfg L method calcDeriv approx init drift ctrl) where
  tfId := true
  ampId := true
  tf := by
    intro _ τ y x h
    exact (Except.ok.inj h).symm
  amp := by
    intro _ x r h
    simp only [simpleCfg, schroedCfg, idAmp] at h
    split at h
    · cases h; rfl
    · simp at h

/-- The same solver with functions that copy. -/
noncomputable def simpleCopying (L : Lapack n) (method : Method) (calcDeriv : Bool) (approx : ApproxMethod) (init : Matrix n m ℂ)
    (drift ctrl : List (Matrix n n ℂ)) : Sharing (simpleCfg L method calcDeriv approx init drift ctrl) :=
  ⟨false, false, nofun, nofun⟩

/-- A solver with the first order Taylor method, one step of duration 1, one control. -/
noncomputable def aliasCfg (L : Lapack (Fin 1)) : Cfg (Fin 1) (Fin 1) := simpleCfg L .first false .grape 1 [0] [1]

theorem aliasCfg_amps (L : Lapack (Fin 1)) (a : ℝ) : ampsOf (aliasCfg L) [1] [[a]] = some [[a]] :=
  ampsOf_simple L .first false .grape 1 [0] [1] [1] [[a]] (by simp) rfl (by simp)

theorem aliasCfg_stable (L : Lapack (Fin 1)) : Stable (aliasCfg L) := Or.inr (Or.inr ⟨by simp [aliasCfg, simpleCfg, schroedCfg], rfl⟩)

theorem aliasCfg_props (L : Lapack (Fin 1)) (a : ℝ) :
    (readProps (aliasCfg L) (fresh (aliasCfg L) [1] [[a]])).1 = .ok [some (1 + (a : ℂ) • (-Complex.I) • 1)] := by
  obtain ⟨hI, hT⟩ := fresh_inv (aliasCfg L) [1] [[a]] [[a]] (aliasCfg_amps L a)
  have hm : (aliasCfg L).method ≠ .other := by simp [aliasCfg, simpleCfg, schroedCfg]
  have hgl : ((aliasCfg L).gens [[a]]).length = 1 := schroedGens_length _ _ _
  have hG : ((aliasCfg L).gens [[a]]).getD 0 0 = (a : ℂ) • (-Complex.I) • 1 := by
    show (schroedGens [0] [1] [[a]]).getD 0 0 = _
    simp [schroedGens, addCtrls, addCtrl, column, smul_smul, mul_comm]
  rw [(readProps_ok (aliasCfg_stable L) hI).1, hT, specProps, show (aliasCfg L).xTimes [1] = [1] from rfl]
  rw [show cells (aliasCfg L) [1] [[a]] = cellsP (aliasCfg L) [1] [[a]] from rfl,
    cellsP_ok (aliasCfg L) hm [1] [[a]] (by rw [hgl]; simp)]
  simp only [List.length_singleton, List.range_one, List.map_cons, List.map_nil, orErr, hG]
  congr 3
  simp [aliasCfg, simpleCfg, schroedCfg, expProp, Operator.exp]

/-- **C130 violated** for the default functions: the pulse 0 is handed over, the array overwritten by 1, and the propagator read is that
of 1; handing over the pulse 0 again in another array does not help. -/
theorem c130_violated (L : Lapack (Fin 1)) : ∃ st,
    aExec (aliasCfg L) (simpleSharing ..) [.set 0, .write 0 0 0 1] (aNew (aliasCfg L) [1] [[[0]], [[0]]]) = some st ∧
    aExec (aliasCfg L) (simpleSharing ..) [.set 0, .write 0 0 0 1, .set 1] (aNew (aliasCfg L) [1] [[[0]], [[0]]]) = some st ∧
    handed [.set 0, .write 0 0 0 1] [[[0]], [[0]]] none = some [[0]] ∧
    handed [.set 0, .write 0 0 0 1, .set 1] [[[0]], [[0]]] none = some [[0]] ∧
    ¬ SameReads (aliasCfg L) st.s (fresh (aliasCfg L) [1] [[0]]) := by
  obtain ⟨st, h1, h2, h3⟩ := shared_follows (aliasCfg L) (aliasCfg_stable L) (simpleSharing L .first false .grape 1 [0] [1]) rfl rfl [1] [[0]] 0 0 1
    (aliasCfg_amps L 0) (aliasCfg_amps L 1)
  refine ⟨st, h1, h2, rfl, rfl, fun h => ?_⟩
  have h4 := h3.1.symm.trans h.1
  rw [show setEntry 0 0 1 [[0]] = [[(1 : ℝ)]] from rfl, aliasCfg_props, aliasCfg_props] at h4
  simp only [Except.ok.injEq, List.cons.injEq, Option.some.injEq, and_true] at h4
  have h5 := congrFun (congrFun h4 0) 0
  simp at h5

/-- A case of `c130_own_partial`: the same program with functions which copy reads the propagator of the pulse 0. -/
example (L : Lapack (Fin 1)) : ∃ st,
    aExec (aliasCfg L) (simpleCopying ..) [.set 0, .write 0 0 0 1] (aNew (aliasCfg L) [1] [[[0]], [[0]]]) = some st ∧
    (readProps (aliasCfg L) st.s).1 = .ok [some 1] := by
  obtain ⟨st, h⟩ : ∃ st, aExec (aliasCfg L) (simpleCopying L .first false .grape 1 [0] [1]) [.set 0, .write 0 0 0 1]
      (aNew (aliasCfg L) [1] [[[0]], [[0]]]) = some st := by
    obtain ⟨s1, e1, -⟩ := setFrom_ok (aliasCfg L) (simpleCopying L .first false .grape 1 [0] [1]) 0 (aNew (aliasCfg L) [1] [[[0]], [[0]]]) _ _
      rfl rfl (aliasCfg_amps L 0)
    exact ⟨_, by simp only [aExec, AOp.run, e1]; rfl⟩
  refine ⟨st, h, ?_⟩
  rw [(c130_own_partial _ (aliasCfg_stable L) _ (Or.inl rfl) [1] _ _ st h [[0]] rfl).1, aliasCfg_props]
  simp

/-- A case of `c130_shared_partial`: the array is reused for the next pulse, which is handed over before anything is read. -/
example (L : Lapack (Fin 1)) : ∃ st,
    aExec (aliasCfg L) (simpleSharing ..) [.set 0, .write 0 0 0 1, .set 0] (aNew (aliasCfg L) [1] [[[0]]]) = some st ∧
    (readProps (aliasCfg L) st.s).1 = .ok [some (1 + ((1 : ℝ) : ℂ) • (-Complex.I) • 1)] := by
  obtain ⟨st, h⟩ : ∃ st, aExec (aliasCfg L) (simpleSharing L .first false .grape 1 [0] [1]) [.set 0, .write 0 0 0 1, .set 0]
      (aNew (aliasCfg L) [1] [[[0]]]) = some st := by
    obtain ⟨s1, e1, e2, e3, e4⟩ := setFrom_ok (aliasCfg L) (simpleSharing L .first false .grape 1 [0] [1]) 0 (aNew (aliasCfg L) [1] [[[0]]]) _ _
      rfl rfl (aliasCfg_amps L 0)
    obtain ⟨s2, f1, -⟩ := setFrom_ok (aliasCfg L) (simpleSharing L .first false .grape 1 [0] [1]) 0 (writeEntry 0 0 0 1 s1) [[1]] [[1]]
      (by simp [writeEntry, e2, aNew, setEntry]) (by show s1.s.times = _; rw [e4]; show _ = (aliasCfg L).xTimes s1.s.tau; rw [e3]; rfl)
      (by show ampsOf _ s1.s.tau _ = _; rw [e3]; exact aliasCfg_amps L 1)
    exact ⟨s2, by simp only [aExec, AOp.run, e1, f1]⟩
  refine ⟨st, h, ?_⟩
  rw [(c130_shared_partial _ (aliasCfg_stable L) _ rfl rfl [1] _ _ (by simp [Intact, setEntry]) st h [[1]] (by simp [handed, setEntry])).1,
    aliasCfg_props]

end Concrete
end Verif.Solver
