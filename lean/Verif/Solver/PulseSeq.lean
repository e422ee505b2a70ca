import Verif.Solver.CacheThms

/-!
# The pulse sequence for the filter functions (solver_algorithms.py:305-317, 406-412, 563-615, 679-749, 1452-1480,
cost_functions.py:1563-1596)

The package `filter_functions` itself is not modelled.  `PulseSequence(...)` is a record of its arguments; the checks it makes are a
parameter of the configuration (`reject`), and so is the choice of sample frequencies.

Simplifications: a noise term which is not a list of three elements ending with a string is rejected with ValueError (the Monte Carlo
solver leaves this to the package, which accepts some of them); the noise function given by the user is a function without side effects;
`_diagonalize_and_propagate_pulse_sequence`, the caches inside the package and the order in which it stores the operators are not
modelled.
-/

namespace Verif.Solver
open Verif Verif.Operator Matrix

/-- An element of the nested list `filter_function_h_n`. -/
inductive Term (n : Type) where
  | wrongLength
  | noString
  | ok (oper : Matrix n n ℂ) (coeff : List ℝ) (id : String)

/-- `filter_function_h_n`: a list (empty for `None`), a callable with the documented three arguments, or one with a single argument. -/
inductive NoiseSpec (n : Type) where
  | list (l : List (Term n))
  | three (f : Option Pulse → Option Pulse → Pulse → List (Term n))
  | one (f : Option Pulse → List (Term n))

/-- The class of the solver. -/
inductive Kind (n : Type) where
  | base
  | monteCarlo (hNoise : List (Matrix n n ℂ))

/-- A pulse sequence: control and noise operators with coefficients and identifiers, durations, basis. -/
structure Seq (n B : Type) where
  controls : List (Matrix n n ℂ × List ℝ × String)
  noise : List (Matrix n n ℂ × List ℝ × String)
  dt : List ℝ
  basis : Option B

/-- What the constructor fixes for the filter functions. -/
structure FCfg (n m B Ω : Type) where
  cfg : Cfg n m
  hCtrl : List (Matrix n n ℂ)
  kind : Kind n
  spec : NoiseSpec n
  /-- `filter_function_basis` -/
  basis : Option B
  /-- the exceptions of the constructor `PulseSequence` -/
  reject : Seq n B → Option PyErr
  /-- `filter_functions.util.get_sample_frequencies` -/
  freqs : Seq n B → Ω

/-- The solver with its pulse sequence, `filter_function_n_oper_identifiers`, and `_omega` of the cost function. -/
structure FSt (n m B Ω : Type) where
  s : St n m
  seq : Option (Seq n B)
  ids : List String
  omega : Option Ω

section
variable {n m B Ω : Type} [Fintype n] [DecidableEq n]

/-- The loop over the noise terms, solver_algorithms.py:597-613: the identifiers stored up to the first exception. -/
def identLoop : List (Term n) → List String × Option PyErr
  | [] => ([], none)
  | .wrongLength :: _ => ([], some .valueError)
  | .noString :: _ => ([], some .valueError)
  | .ok _ _ i :: l => let r := identLoop l; (i :: r.1, r.2)

/-- The terms as the package receives them. -/
def triples : List (Term n) → Except PyErr (List (Matrix n n ℂ × List ℝ × String))
  | [] => .ok []
  | .ok o c i :: l => (triples l).map fun r => (o, c, i) :: r
  | _ :: _ => .error .valueError

/-- The noise terms before the checks, solver_algorithms.py:573-593 and 1466-1478.  The base class calls a callable with three
arguments, and after a TypeError with the control amplitudes only; the Monte Carlo class calls it with the optimization parameters only. -/
def noiseTerms (F : FCfg n m B Ω) (s : St n m) (u : Pulse) : Except PyErr (List (Term n)) :=
  match F.kind with
  | .base =>
    let h := match F.spec with
      | .list l => l
      | .three f => f s.optPars s.xPars u
      | .one f => f (some u)
    match h with
    | [] => match F.hCtrl with
      | [] => .error .indexError
      | H :: _ => .ok [.ok ((0 : ℂ) • H) s.times "No Noise"]
    | h => .ok h
  | .monteCarlo hNoise =>
    let h : Except PyErr (List (Term n)) := match F.spec with
      | .list l => .ok l
      | .three _ => .error .typeError
      | .one f => .ok (f s.optPars)
    match h with
    | .error e => .error e
    | .ok [] => .ok (hNoise.mapIdx fun i H => .ok H (List.replicate s.times.length 1) ("Noise" ++ toString i))
    | .ok h => .ok h

/-- `create_ff_h_n`, solver_algorithms.py:563-615 and 1452-1480, with the list of identifiers it leaves behind. -/
def createHN (F : FCfg n m B Ω) (s : St n m) (u : Pulse) (ids : List String) :
    Except PyErr (List (Term n)) × List String :=
  match noiseTerms F s u with
  | .error e => (.error e, ids)
  | .ok h => match F.kind with
    | .base => match identLoop h with
      | (ids, some e) => (.error e, ids)
      | (ids, none) => (.ok h, ids)
    | .monteCarlo _ => (.ok h, ids)

/-- `self._ctrl_amps.T`. -/
def transposed (nCtrl : Nat) (u : Pulse) : List (List ℝ) := (List.range nCtrl).map fun c => column u c

/-- `list(zip(h_ctrl, _ctrl_amps.T, names))`, solver_algorithms.py:727-731. -/
def controlsOf (F : FCfg n m B Ω) (u : Pulse) : List (Matrix n n ℂ × List ℝ × String) :=
  List.zipWith (fun H c => (H, c)) F.hCtrl
    (List.zipWith (fun c i => (c, i)) (transposed F.cfg.nCtrl u) ((List.range F.hCtrl.length).map fun i => "Control" ++ toString i))

/-- `create_pulse_sequence` after the amplitudes have been set, solver_algorithms.py:712-749. -/
def buildSeq (F : FCfg n m B Ω) (basis : Option B) (u : Pulse) (w : FSt n m B Ω) : Option PyErr × FSt n m B Ω :=
  let basis := basis <|> F.basis
  let (h, ids) := createHN F w.s u w.ids
  let w := { w with ids := ids }
  match h with
  | .error e => (some e, w)
  | .ok h => match triples h with
    | .error e => (some e, w)
    | .ok t => match w.seq with
      | none =>
        let q : Seq n B := ⟨controlsOf F u, t, w.s.times, basis⟩
        match F.reject q with
        | some e => (some e, w)
        | none => (none, { w with seq := some q })
      | some q =>
        let q := { q with
          controls := List.zipWith (fun a c => (a.1, c, a.2.2)) q.controls (transposed F.cfg.nCtrl u)
          noise := List.zipWith (fun a b => (a.1, b.2.1, a.2.2)) q.noise t
          basis := basis <|> q.basis }
        (none, { w with seq := some q })

open scoped Classical in
/-- `set_optimization_parameters`: every change of the pulse resets the pulse sequence, solver_algorithms.py:412, 876-877. -/
noncomputable def fSet (F : FCfg n m B Ω) (y : Pulse) (w : FSt n m B Ω) : Option PyErr × FSt n m B Ω :=
  let r := setPars F.cfg y w.s
  (r.1, { w with s := r.2, seq := if w.s.optPars = some y then w.seq else none })

/-- `create_pulse_sequence`, solver_algorithms.py:679-749. -/
noncomputable def createSeq (F : FCfg n m B Ω) (new : Option Pulse) (basis : Option B) (w : FSt n m B Ω) :
    Option PyErr × FSt n m B Ω :=
  let r : Option PyErr × FSt n m B Ω := match new with
    | some y => fSet F y w
    | none => match w.s.amps with
      | none => (some .valueError, w)
      | some _ => (none, w)
  match r with
  | (some e, w) => (some e, w)
  | (none, w) => match w.s.amps with
    -- `self._ctrl_amps.T` of `None`
    | none => (some .attributeError, w)
    | some u => buildSeq F basis u w

/-- What the cost function hands to `filter_functions.numeric.infidelity`. -/
structure Args (n B Ω : Type) where
  pulse : Seq n B
  omega : Ω
  ids : List String

/-- `OperationInfidelity...FilterFunction.costs` up to the call of the package, cost_functions.py:1563-1596. -/
noncomputable def ffCosts (F : FCfg n m B Ω) (w : FSt n m B Ω) : Except PyErr (Args n B Ω) × FSt n m B Ω :=
  let r : Option PyErr × FSt n m B Ω := match w.seq with
    | none => createSeq F none none w
    | some _ => (none, w)
  match r with
  | (some e, w) => (.error e, w)
  | (none, w) => match w.seq with
    | none => (.error .attributeError, w)
    | some q =>
      let om := w.omega.getD (F.freqs q)
      (.ok ⟨q, om, w.ids⟩, { w with omega := some om })

/-! ## Histories -/

/-- The operations: those of the solver, the creation of a pulse sequence, and the evaluation of the cost function. -/
inductive FOp (B : Type) where
  | solver (op : Op)
  | create (new : Option Pulse) (basis : Option B)
  | costs

noncomputable def FOp.run (F : FCfg n m B Ω) : FOp B → FSt n m B Ω → FSt n m B Ω
  | .solver (.set y), w => (fSet F y w).2
  | .solver (.times τ), w => { w with s := setTimes F.cfg τ w.s, seq := none }
  | .solver op, w => { w with s := (op.run F.cfg w.s).2 }
  | .create new basis, w => (createSeq F new basis w).2
  | .costs, w => (ffCosts F w).2

/-- Any history; exceptions are caught by the caller. -/
noncomputable def fExec (F : FCfg n m B Ω) (ops : List (FOp B)) (w : FSt n m B Ω) : FSt n m B Ω :=
  ops.foldl (fun w op => op.run F w) w

/-- After construction, with the frequencies given to the cost function. -/
def fConstruct (F : FCfg n m B Ω) (τ : List ℝ) (omega : Option Ω) : FSt n m B Ω := ⟨construct F.cfg τ, none, [], omega⟩

/-! ## The specification -/

/-- Specification: the sequence describes the amplitudes, times and noise terms of the state, with the base class's identifiers. -/
structure Describes (F : FCfg n m B Ω) (s : St n m) (u : Pulse) (q : Seq n B) : Prop where
  amps : s.amps = some u
  /-- one control for each operator, with the time trace of its amplitudes -/
  controls : q.controls = (List.range F.hCtrl.length).map fun c => (F.hCtrl.getD c 0, column u c, "Control" ++ toString c)
  dt : q.dt = s.times
  noise : ∃ h, noiseTerms F s u = .ok h ∧ h = q.noise.map fun t => .ok t.1 t.2.1 t.2.2

theorem triples_ok : ∀ {h : List (Term n)} {t}, triples h = .ok t → h = t.map fun t => .ok t.1 t.2.1 t.2.2
  | [], t, e => by cases e; rfl
  | .ok o c i :: l, t, e => by
    unfold triples at e
    cases hl : triples l with
    | error x => rw [hl] at e; cases e
    | ok r => rw [hl] at e; cases e; simp [← triples_ok hl]
  | .wrongLength :: _, t, e => by cases e
  | .noString :: _, t, e => by cases e

theorem triples_of (t : List (Matrix n n ℂ × List ℝ × String)) : triples (t.map fun t => (.ok t.1 t.2.1 t.2.2 : Term n)) = .ok t := by
  induction t with
  | nil => rfl
  | cons a t ih => simp [triples, ih, Except.map]

theorem identLoop_of (t : List (Matrix n n ℂ × List ℝ × String)) :
    identLoop (t.map fun t => (.ok t.1 t.2.1 t.2.2 : Term n)) = (t.map (·.2.2), none) := by
  induction t with
  | nil => rfl
  | cons a t ih => simp [identLoop, ih]

theorem controlsOf_eq (F : FCfg n m B Ω) (hc : F.cfg.nCtrl = F.hCtrl.length) (u : Pulse) :
    controlsOf F u = (List.range F.hCtrl.length).map fun c => (F.hCtrl.getD c 0, column u c, "Control" ++ toString c) := by
  unfold controlsOf transposed
  rw [hc]
  apply List.ext_getElem (by simp)
  intro i h1 h2
  have : i < F.hCtrl.length := by simpa using h2
  simp [this]

theorem reuse_controls (F : FCfg n m B Ω) (hc : F.cfg.nCtrl = F.hCtrl.length) (u : Pulse) (l : List (Matrix n n ℂ × List ℝ × String))
    (hl : l = (List.range F.hCtrl.length).map fun c => (F.hCtrl.getD c 0, column u c, "Control" ++ toString c)) :
    List.zipWith (fun a c => (a.1, c, a.2.2)) l (transposed F.cfg.nCtrl u) = l := by
  rw [hl, hc]
  unfold transposed
  apply List.ext_getElem (by simp)
  intro i h1 h2
  simp

theorem reuse_noise (t : List (Matrix n n ℂ × List ℝ × String)) : List.zipWith (fun a b => (a.1, b.2.1, a.2.2)) t t = t := by
  apply List.ext_getElem (by simp)
  intro i h1 h2
  simp

/-- The identifiers stored for the terms of a sequence. -/
def IdsOk (F : FCfg n m B Ω) (q : Seq n B) (ids : List String) : Prop :=
  match F.kind with
  | .base => ids = q.noise.map (·.2.2)
  | .monteCarlo _ => True

/-- Invariant: a cached pulse sequence describes the present state. -/
def FInv (F : FCfg n m B Ω) (w : FSt n m B Ω) : Prop :=
  ∀ q, w.seq = some q → (∃ u, Describes F w.s u q) ∧ IdsOk F q w.ids

theorem createHN_ok {F : FCfg n m B Ω} {s : St n m} {u : Pulse} {ids ids' : List String} {h : List (Term n)}
    (e : createHN F s u ids = (.ok h, ids')) {t} (ht : triples h = .ok t) :
    noiseTerms F s u = .ok h ∧ (match F.kind with | .base => ids' = t.map (·.2.2) | .monteCarlo _ => ids' = ids) := by
  unfold createHN at e
  cases hn : noiseTerms F s u with
  | error x => rw [hn] at e; simp at e
  | ok h' =>
    rw [hn] at e
    simp only at e
    cases hk : F.kind with
    | base =>
      rw [hk] at e
      simp only at e
      cases hi : identLoop h' with
      | mk a b =>
        rw [hi] at e
        cases b with
        | some x => simp at e
        | none =>
          simp only [Prod.mk.injEq, Except.ok.injEq] at e
          obtain ⟨rfl, rfl⟩ := e
          refine ⟨rfl, ?_⟩
          rw [triples_ok ht, identLoop_of] at hi
          simp only [Prod.mk.injEq, and_true] at hi
          exact hi.symm
    | monteCarlo hN =>
      rw [hk] at e
      simp only [Prod.mk.injEq, Except.ok.injEq] at e
      obtain ⟨rfl, rfl⟩ := e
      exact ⟨rfl, rfl⟩

/-- If the terms are those of a sequence, `create_ff_h_n` returns them. -/
theorem createHN_again {F : FCfg n m B Ω} {s : St n m} {u : Pulse} (ids : List String) (t : List (Matrix n n ℂ × List ℝ × String))
    (hn : noiseTerms F s u = .ok (t.map fun t => .ok t.1 t.2.1 t.2.2)) :
    createHN F s u ids = (.ok (t.map fun t => .ok t.1 t.2.1 t.2.2), match F.kind with | .base => t.map (·.2.2) | .monteCarlo _ => ids) := by
  unfold createHN
  rw [hn]
  simp only
  cases F.kind with
  | base => simp only [identLoop_of]
  | monteCarlo hN => rfl

theorem buildSeq_inv {F : FCfg n m B Ω} (hc : F.cfg.nCtrl = F.hCtrl.length) (basis : Option B) (u : Pulse) (w : FSt n m B Ω)
    (hu : w.s.amps = some u) (h : FInv F w) :
    FInv F (buildSeq F basis u w).2 ∧ (buildSeq F basis u w).2.s = w.s ∧
      ((buildSeq F basis u w).1 = none → ∃ q, (buildSeq F basis u w).2.seq = some q) := by
  cases hs : w.seq with
  | some q =>
    obtain ⟨⟨u', hd⟩, hi⟩ := h q hs
    have : u' = u := by have := hd.amps; rw [hu] at this; exact (Option.some.inj this).symm
    subst this
    obtain ⟨h', hn, rfl⟩ := hd.noise
    have hb : buildSeq F basis u' w = (none, { w with
        ids := (match F.kind with | .base => q.noise.map (·.2.2) | .monteCarlo _ => w.ids),
        seq := some { q with basis := (basis <|> F.basis) <|> q.basis } }) := by
      unfold buildSeq
      simp only [createHN_again w.ids q.noise hn, triples_of, hs, reuse_noise, reuse_controls F hc u' q.controls hd.controls]
    rw [hb]
    refine ⟨?_, rfl, fun _ => ⟨_, rfl⟩⟩
    intro q' hq'
    simp only [Option.some.injEq] at hq'
    subst hq'
    refine ⟨⟨u', hd.amps, hd.controls, hd.dt, hd.noise⟩, ?_⟩
    unfold IdsOk
    cases F.kind with
    | base => rfl
    | monteCarlo hN => trivial
  | none =>
    unfold buildSeq
    simp only
    cases hh : createHN F w.s u w.ids with
    | mk r ids =>
      simp only
      cases r with
      | error e => exact ⟨fun q hq => by simp [hs] at hq, rfl, fun e => by simp at e⟩
      | ok t =>
        simp only
        cases ht : triples t with
        | error e => exact ⟨fun q hq => by simp [hs] at hq, rfl, fun e => by simp at e⟩
        | ok t' =>
          simp only [hs]
          split
          · exact ⟨fun q hq => by simp at hq, rfl, fun e => by simp at e⟩
          · refine ⟨?_, rfl, fun _ => ⟨_, rfl⟩⟩
            intro q hq
            simp only [Option.some.injEq] at hq
            subst hq
            obtain ⟨a, b⟩ := createHN_ok hh ht
            refine ⟨⟨u, hu, controlsOf_eq F hc u, rfl, t, a, triples_ok ht⟩, ?_⟩
            unfold IdsOk
            cases hk : F.kind with
            | base => rw [hk] at b; exact b
            | monteCarlo hN => trivial

theorem fSet_inv {F : FCfg n m B Ω} (y : Pulse) (w : FSt n m B Ω) (h : FInv F w) : FInv F (fSet F y w).2 := by
  intro q hq
  simp only [fSet] at hq
  split at hq
  · next e =>
    have hs : setPars F.cfg y w.s = (none, w.s) := by rw [setPars, if_pos e]
    have := h q hq
    simp only [fSet, hs]
    exact this
  · cases hq

theorem createSeq_inv {F : FCfg n m B Ω} (hc : F.cfg.nCtrl = F.hCtrl.length) (new : Option Pulse) (basis : Option B) (w : FSt n m B Ω)
    (h : FInv F w) : FInv F (createSeq F new basis w).2 := by
  unfold createSeq
  simp only
  cases new with
  | some y =>
    have h1 := fSet_inv y w h
    simp only
    cases hf : fSet F y w with
    | mk e w' =>
      rw [hf] at h1
      cases e with
      | some e => exact h1
      | none =>
        simp only
        cases hu : w'.s.amps with
        | none => exact h1
        | some u => exact (buildSeq_inv hc basis u w' hu h1).1
  | none =>
    simp only
    cases hu : w.s.amps with
    | none => exact h
    | some u => simp only [hu]; exact (buildSeq_inv hc basis u w hu h).1

theorem ffCosts_inv {F : FCfg n m B Ω} (hc : F.cfg.nCtrl = F.hCtrl.length) (w : FSt n m B Ω) (h : FInv F w) : FInv F (ffCosts F w).2 := by
  have key : ∀ (r : Option PyErr × FSt n m B Ω), FInv F r.2 → FInv F (match r with
      | (some e, w) => ((.error e : Except PyErr (Args n B Ω)), w)
      | (none, w) => match w.seq with
        | none => (.error .attributeError, w)
        | some q => (.ok ⟨q, w.omega.getD (F.freqs q), w.ids⟩, { w with omega := some (w.omega.getD (F.freqs q)) })).2 := by
    rintro ⟨e, w⟩ h
    cases e with
    | some e => exact h
    | none =>
      simp only
      split
      · exact h
      · exact h
  unfold ffCosts
  simp only
  refine key _ ?_
  split
  · exact createSeq_inv hc none none w h
  · exact h

/-! ### Reading propagators leaves the transferred parameters alone -/

theorem xPars_computePropagation (cfg : Cfg n m) (wd : Bool) (s : St n m) : (computePropagation cfg wd s).2.xPars = s.xPars := by
  unfold computePropagation
  cases s.amps with
  | none => rfl
  | some u => cases wd <;> rfl

theorem xPars_ensureProp (cfg : Cfg n m) (wd : Bool) (s : St n m) : (ensureProp cfg wd s).2.xPars = s.xPars := by
  unfold ensureProp
  cases s.prop with
  | none => exact xPars_computePropagation cfg wd s
  | some p => rfl

theorem xPars_run (cfg : Cfg n m) (op : Op) (s : St n m) (h1 : ∀ y, op ≠ .set y) (h2 : ∀ τ, op ≠ .times τ) :
    (op.run cfg s).2.xPars = s.xPars := by
  cases op with
  | set y => exact absurd rfl (h1 y)
  | times τ => exact absurd rfl (h2 τ)
  | props =>
    show (readProps cfg s).2.xPars = _
    unfold readProps
    cases s.prop with
    | some p => rfl
    | none =>
      have := xPars_computePropagation cfg cfg.calcDeriv s
      simp only
      split <;> rename_i heq <;> rw [heq] at this <;> exact this
  | fwd =>
    show (readFwd cfg s).2.xPars = _
    unfold readFwd
    cases s.fwd with
    | some p => rfl
    | none =>
      have h0 := xPars_ensureProp cfg cfg.calcDeriv s
      have : (computeFwd cfg s).2.xPars = s.xPars := by
        unfold computeFwd
        split <;> rename_i heq <;> rw [heq] at h0 <;> exact h0
      simp only
      split <;> rename_i heq <;> rw [heq] at this <;> exact this
  | rev =>
    show (readRev cfg s).2.xPars = _
    unfold readRev
    cases s.rev with
    | some p => rfl
    | none =>
      have h0 := xPars_ensureProp cfg cfg.calcDeriv s
      have : (computeRev cfg s).2.xPars = s.xPars := by
        unfold computeRev
        split <;> rename_i heq <;> rw [heq] at h0
        · exact h0
        · split <;> exact h0
      simp only
      split <;> rename_i heq <;> rw [heq] at this <;> exact this
  | deriv =>
    show (readDeriv cfg s).2.xPars = _
    unfold readDeriv
    cases s.deriv with
    | some p => rfl
    | none =>
      have : (computeDeriv cfg s).2.xPars = s.xPars := by
        unfold computeDeriv
        cases cfg.approx with
        | none => exact xPars_computePropagation cfg true s
        | other => rfl
        | grape =>
          have h0 := xPars_ensureProp cfg false s
          simp only
          split <;> rename_i heq <;> rw [heq] at h0 <;> exact h0
      simp only
      split <;> rename_i heq <;> rw [heq] at this <;> exact this

theorem noiseTerms_congr {F : FCfg n m B Ω} {s s' : St n m} (u : Pulse) (h1 : s'.times = s.times) (h2 : s'.optPars = s.optPars)
    (h3 : s'.xPars = s.xPars) : noiseTerms F s' u = noiseTerms F s u := by
  unfold noiseTerms
  rw [h1, h2, h3]

theorem run_inv {F : FCfg n m B Ω} (hc : F.cfg.nCtrl = F.hCtrl.length) (op : FOp B) (w : FSt n m B Ω) (h : FInv F w) : FInv F (op.run F w) := by
  have read : ∀ op : Op, (∀ y, op ≠ .set y) → (∀ τ, op ≠ .times τ) → FInv F { w with s := (op.run F.cfg w.s).2 } := by
    intro op h1 h2 q hq
    obtain ⟨⟨u, hd⟩, hi⟩ := h q hq
    obtain ⟨-, f2, f3, f4⟩ := frame_run F.cfg op w.s h1 h2
    refine ⟨⟨u, f4.trans hd.amps, hd.controls, hd.dt.trans f2.symm, ?_⟩, hi⟩
    have := hd.noise
    rwa [← noiseTerms_congr u f2 f3 (xPars_run F.cfg op w.s h1 h2)] at this
  cases op with
  | create new basis => exact createSeq_inv hc new basis w h
  | costs => exact ffCosts_inv hc w h
  | solver op =>
    cases op with
    | set y => exact fSet_inv y w h
    | times τ => exact fun q hq => by simp [FOp.run] at hq
    | props => exact read .props (by simp) (by simp)
    | fwd => exact read .fwd (by simp) (by simp)
    | rev => exact read .rev (by simp) (by simp)
    | deriv => exact read .deriv (by simp) (by simp)

theorem fExec_inv {F : FCfg n m B Ω} (hc : F.cfg.nCtrl = F.hCtrl.length) (ops : List (FOp B)) (w : FSt n m B Ω) (h : FInv F w) :
    FInv F (fExec F ops w) := by
  induction ops generalizing w with
  | nil => exact h
  | cons op ops ih => exact ih _ (run_inv hc op w h)

/-! ## C87 -/

/-- Specification: the noise terms the user asks for, given the pulse, the transferred pulse and the amplitudes. -/
def userTerms (spec : NoiseSpec n) (y x : Option Pulse) (u : Pulse) : List (Term n) :=
  match spec with
  | .list l => l
  | .three f => f y x u
  | .one f => f (some u)

/-- What a successful evaluation hands over. -/
theorem ffCosts_ok {F : FCfg n m B Ω} (hc : F.cfg.nCtrl = F.hCtrl.length) {w : FSt n m B Ω} (h : FInv F w) {a : Args n B Ω}
    (ha : (ffCosts F w).1 = .ok a) : (∃ u, Describes F w.s u a.pulse) ∧ IdsOk F a.pulse a.ids ∧ (∀ o, w.omega = some o → a.omega = o) := by
  unfold ffCosts at ha
  simp only at ha
  cases hs : w.seq with
  | some q =>
    rw [hs] at ha
    simp only [hs, Except.ok.injEq] at ha
    subst ha
    obtain ⟨h1, h2⟩ := h q hs
    exact ⟨h1, h2, fun o ho => by simp [ho]⟩
  | none =>
    rw [hs] at ha
    simp only at ha
    unfold createSeq at ha
    simp only at ha
    cases hu : w.s.amps with
    | none => simp [hu] at ha
    | some u =>
      simp only [hu] at ha
      obtain ⟨h1, h2, h3⟩ := buildSeq_inv hc none u w hu h
      have ho : (buildSeq F none u w).2.omega = w.omega := by
        unfold buildSeq
        simp only
        split
        · rfl
        · split
          · rfl
          · split
            · split <;> rfl
            · rfl
      cases hb : buildSeq F none u w with
      | mk e w' =>
        rw [hb] at ha h1 h2 h3 ho
        cases e with
        | some e => simp at ha
        | none =>
          obtain ⟨q, hq⟩ := h3 rfl
          simp only at hq
          simp only at ha
          rw [hq] at ha
          simp only [Except.ok.injEq] at ha
          subst ha
          obtain ⟨g1, g2⟩ := h1 q hq
          simp only at h2 ho
          rw [h2] at g1
          exact ⟨g1, g2, fun o h => by rw [ho]; simp [h]⟩

theorem construct_inv (F : FCfg n m B Ω) (τ : List ℝ) (om : Option Ω) : FInv F (fConstruct F τ om) := fun q hq => by
  simp [fConstruct] at hq

theorem base_noise {F : FCfg n m B Ω} (hk : F.kind = .base) {s : St n m} {u : Pulse} {h : List (Term n)} (hn : noiseTerms F s u = .ok h) :
    (userTerms F.spec s.optPars s.xPars u ≠ [] → h = userTerms F.spec s.optPars s.xPars u) ∧
    (userTerms F.spec s.optPars s.xPars u = [] → h = [.ok 0 s.times "No Noise"]) := by
  unfold noiseTerms at hn
  rw [hk] at hn
  simp only at hn
  have hh : (match F.spec with
      | .list l => l
      | .three f => f s.optPars s.xPars u
      | .one f => f (some u)) = userTerms F.spec s.optPars s.xPars u := rfl
  rw [hh] at hn
  cases ht : userTerms F.spec s.optPars s.xPars u with
  | nil =>
    rw [ht] at hn
    simp only at hn
    cases hH : F.hCtrl with
    | nil => rw [hH] at hn; cases hn
    | cons H Hs => rw [hH] at hn; cases hn; simp
  | cons a l => rw [ht] at hn; cases hn; simp

/-- **C87** (partial, Schroedinger solvers): after any history of pulses, grids, reads, pulse sequences and evaluations, in which calls
may have raised, the filter function package receives a pulse sequence with the current amplitudes, the current times and the noise
terms of the current pulse (a zero operator if there are none), and the identifiers of these terms in their order.
Missing: the Monte Carlo solvers (`c87_violated_identifiers`) and the frequencies (`c87_violated_frequencies`). -/
theorem c87_arguments_partial (F : FCfg n m B Ω) (hk : F.kind = .base) (hc : F.cfg.nCtrl = F.hCtrl.length) (τ : List ℝ) (om : Option Ω)
    (ops : List (FOp B)) (a : Args n B Ω) (ha : (ffCosts F (fExec F ops (fConstruct F τ om))).1 = .ok a) :
    let s := (fExec F ops (fConstruct F τ om)).s
    ∃ u, s.amps = some u ∧ a.pulse.dt = s.times ∧
      a.pulse.controls = ((List.range F.hCtrl.length).map fun c => (F.hCtrl.getD c 0, column u c, "Control" ++ toString c)) ∧
      (userTerms F.spec s.optPars s.xPars u ≠ [] →
        (a.pulse.noise.map fun t => Term.ok t.1 t.2.1 t.2.2) = userTerms F.spec s.optPars s.xPars u) ∧
      (userTerms F.spec s.optPars s.xPars u = [] → a.pulse.noise = [(0, s.times, "No Noise")]) ∧
      a.ids = a.pulse.noise.map (·.2.2) := by
  intro s
  obtain ⟨⟨u, hd⟩, hi, -⟩ := ffCosts_ok hc (fExec_inv hc ops _ (construct_inv F τ om)) ha
  obtain ⟨h, hn, hh⟩ := hd.noise
  obtain ⟨b1, b2⟩ := base_noise hk hn
  refine ⟨u, hd.amps, hd.dt, hd.controls, fun hne => by rw [← hh]; exact b1 hne, fun he => ?_, ?_⟩
  · have hb := b2 he
    rw [hb] at hh
    have h1 := congrArg List.length hh
    simp only [List.length_cons, List.length_nil, List.length_map] at h1
    obtain ⟨t, ht⟩ := List.length_eq_one_iff.1 h1.symm
    rw [ht] at hh ⊢
    simp only [List.map_cons, List.map_nil, List.cons.injEq, Term.ok.injEq, and_true] at hh
    obtain ⟨e1, e2, e3⟩ := hh
    rw [← Prod.eta t, ← Prod.eta t.2, ← e1, ← e2, ← e3]
  · unfold IdsOk at hi
    rw [hk] at hi
    exact hi

theorem fExec_times (F : FCfg n m B Ω) (ops : List (FOp B)) (w : FSt n m B Ω) (h : w.s.times = F.cfg.xTimes w.s.tau) :
    (fExec F ops w).s.times = F.cfg.xTimes (fExec F ops w).s.tau := by
  have hset : ∀ (y : Pulse) (w : FSt n m B Ω), w.s.times = F.cfg.xTimes w.s.tau → (fSet F y w).2.s.times = F.cfg.xTimes (fSet F y w).2.s.tau := by
    intro y w h
    obtain ⟨a, b⟩ := frame_setPars F.cfg y w.s
    show (setPars F.cfg y w.s).2.times = F.cfg.xTimes (setPars F.cfg y w.s).2.tau
    rw [a, b, h]
  have hbuild : ∀ (b : Option B) (u : Pulse) (w : FSt n m B Ω), (buildSeq F b u w).2.s = w.s := by
    intro b u w
    unfold buildSeq
    simp only
    split
    · rfl
    · split
      · rfl
      · split
        · split <;> rfl
        · rfl
  have hcreate : ∀ (new : Option Pulse) (b : Option B) (w : FSt n m B Ω), w.s.times = F.cfg.xTimes w.s.tau →
      (createSeq F new b w).2.s.times = F.cfg.xTimes (createSeq F new b w).2.s.tau := by
    intro new b w h
    have key : ∀ r : Option PyErr × FSt n m B Ω, r.2.s.times = F.cfg.xTimes r.2.s.tau → (match r with
        | (some e, w) => (some e, w)
        | (none, w) => match w.s.amps with
          | none => (some .attributeError, w)
          | some u => buildSeq F b u w).2.s.times = F.cfg.xTimes (match r with
        | (some e, w) => (some e, w)
        | (none, w) => match w.s.amps with
          | none => (some .attributeError, w)
          | some u => buildSeq F b u w).2.s.tau := by
      rintro ⟨e, w⟩ h
      cases e with
      | some e => exact h
      | none =>
        simp only
        split
        · exact h
        · rw [hbuild]; exact h
    unfold createSeq
    refine key _ ?_
    cases new with
    | some y => exact hset y w h
    | none => simp only; split <;> exact h
  induction ops generalizing w with
  | nil => exact h
  | cons op ops ih =>
    refine ih _ ?_
    cases op with
    | create new b => exact hcreate new b w h
    | costs =>
      show (ffCosts F w).2.s.times = F.cfg.xTimes (ffCosts F w).2.s.tau
      have key : ∀ r : Option PyErr × FSt n m B Ω, r.2.s.times = F.cfg.xTimes r.2.s.tau → (match r with
          | (some e, w) => ((.error e : Except PyErr (Args n B Ω)), w)
          | (none, w) => match w.seq with
            | none => (.error .attributeError, w)
            | some q => (.ok ⟨q, w.omega.getD (F.freqs q), w.ids⟩, { w with omega := some (w.omega.getD (F.freqs q)) })).2.s.times =
          F.cfg.xTimes (match r with
          | (some e, w) => ((.error e : Except PyErr (Args n B Ω)), w)
          | (none, w) => match w.seq with
            | none => (.error .attributeError, w)
            | some q => (.ok ⟨q, w.omega.getD (F.freqs q), w.ids⟩, { w with omega := some (w.omega.getD (F.freqs q)) })).2.s.tau := by
        rintro ⟨e, w⟩ h
        cases e with
        | some e => exact h
        | none => simp only; split <;> exact h
      unfold ffCosts
      refine key _ ?_
      split
      · exact hcreate none none w h
      · exact h
    | solver op =>
      cases op with
      | set y => exact hset y w h
      | times τ => rfl
      | props => obtain ⟨a, b, -⟩ := frame_run F.cfg .props w.s (by simp) (by simp); simp only [FOp.run]; rw [a, b, h]
      | fwd => obtain ⟨a, b, -⟩ := frame_run F.cfg .fwd w.s (by simp) (by simp); simp only [FOp.run]; rw [a, b, h]
      | rev => obtain ⟨a, b, -⟩ := frame_run F.cfg .rev w.s (by simp) (by simp); simp only [FOp.run]; rw [a, b, h]
      | deriv => obtain ⟨a, b, -⟩ := frame_run F.cfg .deriv w.s (by simp) (by simp); simp only [FOp.run]; rw [a, b, h]

/-- **C87** (partial, a new pulse): after any history, an accepted pulse different from the one tried last is the one the package sees:
with the amplitudes a new solver computes from it on the current grid. -/
theorem c87_new_pulse_partial (F : FCfg n m B Ω) (hc : F.cfg.nCtrl = F.hCtrl.length) (τ : List ℝ) (om : Option Ω)
    (ops : List (FOp B)) (y : Pulse) (hy : (fExec F ops (fConstruct F τ om)).s.optPars ≠ some y) (a : Args n B Ω)
    (hset : (fSet F y (fExec F ops (fConstruct F τ om))).1 = none)
    (ha : (ffCosts F (fSet F y (fExec F ops (fConstruct F τ om))).2).1 = .ok a) :
    ∃ u, ampsOf F.cfg (fExec F ops (fConstruct F τ om)).s.tau y = some u ∧
      a.pulse.dt = F.cfg.xTimes (fExec F ops (fConstruct F τ om)).s.tau ∧
      a.pulse.controls = (List.range F.hCtrl.length).map fun c => (F.hCtrl.getD c 0, column u c, "Control" ++ toString c) := by
  have ht := fExec_times F ops (fConstruct F τ om) rfl
  obtain ⟨g1, g2, g3, -, g5, -⟩ := setPars_new F.cfg y _ hy ht
  obtain ⟨u, hu⟩ := g1.1 hset
  obtain ⟨⟨u', hd⟩, -, -⟩ := ffCosts_ok hc (fSet_inv y _ (fExec_inv hc ops _ (construct_inv F τ om))) ha
  have hu' : u' = u := by
    have h1 := hd.amps
    have h2 := (g5 u hu).amps
    simp only [fSet] at h1
    rw [h2] at h1
    exact (Option.some.inj h1).symm
  subst hu'
  refine ⟨u', hu, ?_, hd.controls⟩
  rw [hd.dt]
  simp only [fSet]
  rw [g3, ht]

/-- **C87** (rejection): without a pulse nothing is handed over, and a malformed noise term is rejected with ValueError. -/
theorem c87_rejects (F : FCfg n m B Ω) (hk : F.kind = .base) (w : FSt n m B Ω) (hs : w.seq = none) :
    (w.s.amps = none → (ffCosts F w).1 = .error .valueError) ∧
    (∀ u, w.s.amps = some u → (∃ t ∈ userTerms F.spec w.s.optPars w.s.xPars u, t = .wrongLength ∨ t = .noString) →
      (ffCosts F w).1 = .error .valueError) := by
  constructor
  · intro h; simp [ffCosts, hs, createSeq, h]
  · rintro u hu ⟨t, ht, hbad⟩
    have hid : ∀ l : List (Term n), (∃ t ∈ l, t = .wrongLength ∨ t = .noString) → (identLoop l).2 = some .valueError := by
      intro l
      induction l with
      | nil => rintro ⟨t, ht, -⟩; simp at ht
      | cons a l ih =>
        rintro ⟨t, ht, hb⟩
        cases a with
        | wrongLength => rfl
        | noString => rfl
        | ok o c i =>
          simp only [List.mem_cons] at ht
          rcases ht with rfl | ht
          · simp at hb
          · exact ih ⟨t, ht, hb⟩
    have hne : userTerms F.spec w.s.optPars w.s.xPars u ≠ [] := List.ne_nil_of_mem ht
    have hn : noiseTerms F w.s u = .ok (userTerms F.spec w.s.optPars w.s.xPars u) := by
      unfold noiseTerms
      rw [hk]
      simp only
      have hh : (match F.spec with
          | .list l => l
          | .three f => f w.s.optPars w.s.xPars u
          | .one f => f (some u)) = userTerms F.spec w.s.optPars w.s.xPars u := rfl
      rw [hh]
      cases hz : userTerms F.spec w.s.optPars w.s.xPars u with
      | nil => exact absurd hz hne
      | cons a l => rfl
    have h1 := hid _ ⟨t, ht, hbad⟩
    cases hi : identLoop (userTerms F.spec w.s.optPars w.s.xPars u) with
    | mk x y =>
      rw [hi] at h1
      simp only at h1
      subst h1
      simp [ffCosts, hs, createSeq, hu, buildSeq, createHN, hn, hk, hi]

/-- **C87** (violated, for every Monte Carlo solver): the identifiers handed to the package are empty whatever has been done before,
although the pulse sequence may have any number of noise terms. -/
theorem c87_violated_identifiers (F : FCfg n m B Ω) (hN : List (Matrix n n ℂ)) (hk : F.kind = .monteCarlo hN) (τ : List ℝ) (om : Option Ω)
    (ops : List (FOp B)) : (fExec F ops (fConstruct F τ om)).ids = [] ∧
      ∀ a, (ffCosts F (fExec F ops (fConstruct F τ om))).1 = .ok a → a.ids = [] := by
  have hcn : ∀ (s : St n m) (u : Pulse) (ids : List String), (createHN F s u ids).2 = ids := by
    intro s u ids
    unfold createHN
    rw [hk]
    simp only
    split <;> rfl
  have hbuild : ∀ (b : Option B) (u : Pulse) (w : FSt n m B Ω), (buildSeq F b u w).2.ids = w.ids := by
    intro b u w
    have := hcn w.s u w.ids
    unfold buildSeq
    simp only
    split
    · exact this
    · split
      · exact this
      · split
        · split <;> exact this
        · exact this
  have hcreate : ∀ (new : Option Pulse) (b : Option B) (w : FSt n m B Ω), (createSeq F new b w).2.ids = w.ids := by
    intro new b w
    have key : ∀ r : Option PyErr × FSt n m B Ω, (match r with
        | (some e, w) => (some e, w)
        | (none, w) => match w.s.amps with
          | none => (some .attributeError, w)
          | some u => buildSeq F b u w).2.ids = r.2.ids := by
      rintro ⟨e, w⟩
      cases e with
      | some e => rfl
      | none =>
        simp only
        split
        · rfl
        · rw [hbuild]
    unfold createSeq
    refine (key _).trans ?_
    cases new with
    | some y => rfl
    | none => simp only; split <;> rfl
  have hcosts : ∀ w : FSt n m B Ω, (ffCosts F w).2.ids = w.ids ∧ ∀ a, (ffCosts F w).1 = .ok a → a.ids = w.ids := by
    intro w
    have key : ∀ r : Option PyErr × FSt n m B Ω, (match r with
        | (some e, w) => ((.error e : Except PyErr (Args n B Ω)), w)
        | (none, w) => match w.seq with
          | none => (.error .attributeError, w)
          | some q => (.ok ⟨q, w.omega.getD (F.freqs q), w.ids⟩, { w with omega := some (w.omega.getD (F.freqs q)) })).2.ids = r.2.ids ∧
        ∀ a : Args n B Ω, (match r with
        | (some e, w) => ((.error e : Except PyErr (Args n B Ω)), w)
        | (none, w) => match w.seq with
          | none => (.error .attributeError, w)
          | some q => (.ok ⟨q, w.omega.getD (F.freqs q), w.ids⟩, { w with omega := some (w.omega.getD (F.freqs q)) })).1 = .ok a → a.ids = r.2.ids := by
      rintro ⟨e, w⟩
      cases e with
      | some e => exact ⟨rfl, fun a ha => nomatch ha⟩
      | none =>
        simp only
        split
        · exact ⟨rfl, fun a ha => nomatch ha⟩
        · exact ⟨rfl, fun a ha => by cases ha; rfl⟩
    have h0 : ∀ r : Option PyErr × FSt n m B Ω, r = (match w.seq with
        | none => createSeq F none none w
        | some _ => (none, w)) → r.2.ids = w.ids := by
      rintro r rfl
      split
      · exact hcreate none none w
      · rfl
    unfold ffCosts
    simp only
    obtain ⟨k1, k2⟩ := key (match w.seq with
        | none => createSeq F none none w
        | some _ => (none, w))
    rw [h0 _ rfl] at k1 k2
    exact ⟨k1, k2⟩
  have hall : ∀ (ops : List (FOp B)) (w : FSt n m B Ω), (fExec F ops w).ids = w.ids := by
    intro ops
    induction ops with
    | nil => intro w; rfl
    | cons op ops ih =>
      intro w
      refine (ih _).trans ?_
      cases op with
      | create new b => exact hcreate new b w
      | costs => exact (hcosts w).1
      | solver op => cases op <;> rfl
  have h1 : (fExec F ops (fConstruct F τ om)).ids = [] := hall ops _
  exact ⟨h1, fun a ha => ((hcosts _).2 a ha).trans h1⟩

/-- **C87** (violated, for every Monte Carlo solver): a callable with the three documented arguments never works. -/
theorem c87_violated_callable (F : FCfg n m B Ω) (hN : List (Matrix n n ℂ)) (hk : F.kind = .monteCarlo hN)
    (f : Option Pulse → Option Pulse → Pulse → List (Term n)) (hf : F.spec = .three f) (w : FSt n m B Ω) (hs : w.seq = none) (u : Pulse)
    (hu : w.s.amps = some u) : (ffCosts F w).1 = .error .typeError := by
  simp [ffCosts, hs, createSeq, hu, buildSeq, createHN, noiseTerms, hk, hf]

/-! ### Frequencies and basis -/

/-- `buildSeq` leaves the frequencies alone, and the basis is the one given, that of the solver, or the one before. -/
theorem buildSeq_frame (F : FCfg n m B Ω) (b : Option B) (u : Pulse) (w : FSt n m B Ω) :
    (buildSeq F b u w).2.omega = w.omega ∧
    (b = none → (∀ q, w.seq = some q → q.basis = F.basis) → ∀ q, (buildSeq F b u w).2.seq = some q → q.basis = F.basis) := by
  unfold buildSeq
  simp only
  split
  · exact ⟨rfl, fun _ h => h⟩
  · split
    · exact ⟨rfl, fun _ h => h⟩
    · split
      · rename_i hs
        split
        · exact ⟨rfl, fun _ h => h⟩
        · refine ⟨rfl, ?_⟩
          rintro rfl _ q hq
          simp only [Option.some.injEq] at hq
          rw [← hq]; simp
      · rename_i q hs
        refine ⟨rfl, ?_⟩
        rintro rfl h q' hq
        simp only [Option.some.injEq] at hq
        have := h q hs
        rw [← hq]
        simp only [this]
        cases F.basis <;> rfl

theorem createSeq_frame (F : FCfg n m B Ω) (new : Option Pulse) (b : Option B) (w : FSt n m B Ω) :
    (createSeq F new b w).2.omega = w.omega ∧
    (b = none → (∀ q, w.seq = some q → q.basis = F.basis) → ∀ q, (createSeq F new b w).2.seq = some q → q.basis = F.basis) := by
  have key : ∀ r : Option PyErr × FSt n m B Ω, r.2.omega = w.omega →
      ((∀ q, w.seq = some q → q.basis = F.basis) → ∀ q, r.2.seq = some q → q.basis = F.basis) →
      (match r with
        | (some e, w) => (some e, w)
        | (none, w) => match w.s.amps with
          | none => (some .attributeError, w)
          | some u => buildSeq F b u w).2.omega = w.omega ∧
      (b = none → (∀ q, w.seq = some q → q.basis = F.basis) → ∀ q : Seq n B, (match r with
        | (some e, w) => (some e, w)
        | (none, w) => match w.s.amps with
          | none => (some .attributeError, w)
          | some u => buildSeq F b u w).2.seq = some q → q.basis = F.basis) := by
    rintro ⟨e, v⟩ h1 h2
    cases e with
    | some e => exact ⟨h1, fun _ => h2⟩
    | none =>
      simp only
      split
      · exact ⟨h1, fun _ => h2⟩
      · rename_i u _
        obtain ⟨g1, g2⟩ := buildSeq_frame F b u v
        exact ⟨g1.trans h1, fun hb h => g2 hb (h2 h)⟩
  unfold createSeq
  refine key _ ?_ ?_
  · cases new with
    | some y => rfl
    | none => simp only; split <;> rfl
  · intro h
    cases new with
    | some y =>
      intro q hq
      simp only [fSet] at hq
      split at hq
      · exact h q hq
      · cases hq
    | none => simp only; split <;> exact h

theorem ffCosts_frame (F : FCfg n m B Ω) (w : FSt n m B Ω) :
    (∀ o, w.omega = some o → (ffCosts F w).2.omega = some o ∧ ∀ a, (ffCosts F w).1 = .ok a → a.omega = o) ∧
    ((∀ q, w.seq = some q → q.basis = F.basis) → (∀ q, (ffCosts F w).2.seq = some q → q.basis = F.basis) ∧
      ∀ a, (ffCosts F w).1 = .ok a → a.pulse.basis = F.basis) := by
  have key : ∀ r : Option PyErr × FSt n m B Ω, r.2.omega = w.omega →
      ((∀ q, w.seq = some q → q.basis = F.basis) → ∀ q, r.2.seq = some q → q.basis = F.basis) →
      let z : Except PyErr (Args n B Ω) × FSt n m B Ω := match r with
        | (some e, w) => (.error e, w)
        | (none, w) => match w.seq with
          | none => (.error .attributeError, w)
          | some q => (.ok ⟨q, w.omega.getD (F.freqs q), w.ids⟩, { w with omega := some (w.omega.getD (F.freqs q)) })
      (∀ o, w.omega = some o → z.2.omega = some o ∧ ∀ a, z.1 = .ok a → a.omega = o) ∧
      ((∀ q, w.seq = some q → q.basis = F.basis) → (∀ q, z.2.seq = some q → q.basis = F.basis) ∧
        ∀ a, z.1 = .ok a → a.pulse.basis = F.basis) := by
    rintro ⟨e, v⟩ h1 h2
    simp only at h1 h2
    cases e with
    | some e => exact ⟨fun o ho => ⟨h1.trans ho, fun a ha => (nomatch ha)⟩, fun h => ⟨h2 h, fun a ha => (nomatch ha)⟩⟩
    | none =>
      simp only
      split
      · exact ⟨fun o ho => ⟨h1.trans ho, fun a ha => (nomatch ha)⟩, fun h => ⟨h2 h, fun a ha => (nomatch ha)⟩⟩
      · rename_i q hq
        refine ⟨fun o ho => ?_, fun h => ⟨h2 h, fun a ha => ?_⟩⟩
        · simp [h1, ho]
        · cases ha; exact h2 h q hq
  unfold ffCosts
  refine key _ ?_ ?_
  · split
    · exact (createSeq_frame F none none w).1
    · rfl
  · intro h
    split
    · exact (createSeq_frame F none none w).2 rfl h
    · exact h

/-- **C87** (partial, frequencies): if frequencies are given to the cost function, every evaluation uses them. -/
theorem c87_frequencies_partial (F : FCfg n m B Ω) (τ : List ℝ) (o : Ω) (ops : List (FOp B)) (a : Args n B Ω)
    (ha : (ffCosts F (fExec F ops (fConstruct F τ (some o)))).1 = .ok a) : a.omega = o := by
  have hall : ∀ (ops : List (FOp B)) (w : FSt n m B Ω), w.omega = some o → (fExec F ops w).omega = some o := by
    intro ops
    induction ops with
    | nil => intro w h; exact h
    | cons op ops ih =>
      intro w h
      refine ih _ ?_
      cases op with
      | create new b => exact (createSeq_frame F new b w).1.trans h
      | costs => exact ((ffCosts_frame F w).1 o h).1
      | solver op => cases op <;> exact h
  exact ((ffCosts_frame F _).1 o (hall ops _ rfl)).2 a ha

/-- **C87** (partial, basis): as long as no call of `create_pulse_sequence` names a basis, the package receives that of the solver. -/
theorem c87_basis_partial (F : FCfg n m B Ω) (τ : List ℝ) (om : Option Ω) (ops : List (FOp B))
    (hops : ∀ new b, FOp.create new b ∈ ops → b = none) (a : Args n B Ω)
    (ha : (ffCosts F (fExec F ops (fConstruct F τ om))).1 = .ok a) : a.pulse.basis = F.basis := by
  have hall : ∀ (ops : List (FOp B)) (w : FSt n m B Ω), (∀ new b, FOp.create new b ∈ ops → b = none) →
      (∀ q, w.seq = some q → q.basis = F.basis) → ∀ q, (fExec F ops w).seq = some q → q.basis = F.basis := by
    intro ops
    induction ops with
    | nil => intro w _ h; exact h
    | cons op ops ih =>
      intro w hn h
      refine ih _ (fun new b hb => hn new b (List.mem_cons_of_mem _ hb)) ?_
      cases op with
      | create new b => exact (createSeq_frame F new b w).2 (hn new b (by simp)) h
      | costs => exact ((ffCosts_frame F w).2 h).1
      | solver op =>
        cases op with
        | set y =>
          intro q hq
          simp only [FOp.run, fSet] at hq
          split at hq
          · exact h q hq
          · cases hq
        | times τ => intro q hq; cases hq
        | props => exact h
        | fwd => exact h
        | rev => exact h
        | deriv => exact h
  exact ((ffCosts_frame F _).2 (hall ops _ hops fun q hq => by simp [fConstruct] at hq)).2 a ha

/-! ### A concrete solver -/

/-- A solver with one control, two noise terms given as a callable, and a package which accepts every sequence. -/
noncomputable def exF (L : Lapack (Fin 2)) (H₀ H₁ : Matrix (Fin 2) (Fin 2) ℂ) (kind : Kind (Fin 2)) (spec : NoiseSpec (Fin 2)) :
    FCfg (Fin 2) (Fin 2) Nat ℝ :=
  ⟨simpleCfg L .frechet true .none 1 [H₀, H₀] [H₁], [H₁], kind, spec, none, fun _ => none, fun q => q.dt.sum⟩

theorem exF_set (L : Lapack (Fin 2)) (H₀ H₁ : Matrix (Fin 2) (Fin 2) ℂ) (kind : Kind (Fin 2)) (spec : NoiseSpec (Fin 2))
    (w : FSt (Fin 2) (Fin 2) Nat ℝ) (hw : w.s.times = w.s.tau) (y : Pulse) (hy : y ≠ []) (hlen : y.length = w.s.tau.length)
    (hrow : ∀ row ∈ y, row.length = 1) (hne : w.s.optPars ≠ some y) :
    let r := fSet (exF L H₀ H₁ kind spec) y w
    r.1 = none ∧ r.2.s.amps = some y ∧ r.2.s.times = w.s.times ∧ r.2.s.tau = w.s.tau ∧ r.2.s.optPars = some y ∧ r.2.seq = none ∧
      r.2.omega = w.omega ∧ r.2.ids = w.ids := by
  intro r
  have hu := ampsOf_simple L .frechet true .none (1 : Matrix (Fin 2) (Fin 2) ℂ) [H₀, H₀] [H₁] w.s.tau y hy hlen (by simpa using hrow)
  obtain ⟨g1, g2, g3, g4, g5, -⟩ := setPars_new (exF L H₀ H₁ kind spec).cfg y w.s hne hw
  refine ⟨g1.2 ⟨y, hu⟩, (g5 y hu).amps, g3, g2, g4, ?_, rfl, rfl⟩
  show (if w.s.optPars = some y then w.seq else none) = none
  rw [if_neg hne]

/-- The first evaluation after a pulse, when the noise terms are well formed. -/
theorem ffCosts_first (F : FCfg n m B Ω) (w : FSt n m B Ω) (hs : w.seq = none) (u : Pulse) (hu : w.s.amps = some u)
    (t : List (Matrix n n ℂ × List ℝ × String)) (hn : noiseTerms F w.s u = .ok (t.map fun t => .ok t.1 t.2.1 t.2.2))
    (hr : ∀ q, F.reject q = none) (q : Seq n B) (hq : q = ⟨controlsOf F u, t, w.s.times, F.basis⟩)
    (ids : List String) (hi : ids = match F.kind with | .base => t.map (·.2.2) | .monteCarlo _ => w.ids) :
    ffCosts F w = (.ok ⟨q, w.omega.getD (F.freqs q), ids⟩,
      { w with ids := ids, seq := some q, omega := some (w.omega.getD (F.freqs q)) }) := by
  subst hq hi
  simp [ffCosts, hs, createSeq, hu, buildSeq, createHN_again w.ids t hn, triples_of, hr]

/-- **C87** (violated, frequencies): without given frequencies those of the first pulse sequence are kept: after a change of the time
grid the cost function integrates over frequencies chosen for the old grid. -/
theorem c87_violated_frequencies (L : Lapack (Fin 2)) (H₀ H₁ N : Matrix (Fin 2) (Fin 2) ℂ) :
    let F := exF L H₀ H₁ .base (.list [.ok N [1, 1] "n"])
    ∃ a, (ffCosts F (fExec F [.solver (.set [[1], [2]]), .costs, .solver (.times [3, 3]), .solver (.set [[3], [4]])]
        (fConstruct F [1, 1] none))).1 = .ok a ∧ a.pulse.dt = [3, 3] ∧ a.omega ≠ F.freqs a.pulse := by
  intro F
  let w₀ : FSt (Fin 2) (Fin 2) Nat ℝ := fConstruct F [1, 1] none
  obtain ⟨-, a2, a3, a4, a5, a6, a7, a8⟩ := exF_set L H₀ H₁ .base (.list [.ok N [1, 1] "n"]) w₀ rfl [[1], [2]] (by simp) rfl (by simp)
    (by simp [w₀, fConstruct, construct_facts])
  let w₁ := (fSet F [[1], [2]] w₀).2
  have e1 := ffCosts_first F w₁ a6 [[1], [2]] a2 [(N, [1, 1], "n")] rfl (fun _ => rfl) _ rfl _ rfl
  let w₂ := (ffCosts F w₁).2
  have h2s : w₂.s = w₁.s := by show (ffCosts F w₁).2.s = w₁.s; rw [e1]
  have h2o : w₂.omega = some 2 := by
    show (ffCosts F w₁).2.omega = some 2
    rw [e1]
    have h1 : w₁.omega = none := a7
    have h2 : w₁.s.times = [1, 1] := a3
    simp only [h1, h2]
    simp [F, exF]; norm_num
  let w₃ : FSt (Fin 2) (Fin 2) Nat ℝ := { w₂ with s := setTimes F.cfg [3, 3] w₂.s, seq := none }
  have h3 : w₃.s.times = [3, 3] := rfl
  have h3t : w₃.s.tau = [3, 3] := rfl
  have h3p : w₃.s.optPars = some [[1], [2]] := by
    show w₂.s.optPars = _
    rw [h2s]; exact a5
  obtain ⟨-, b2, b3, b4, b5, b6, b7, b8⟩ := exF_set L H₀ H₁ .base (.list [.ok N [1, 1] "n"]) w₃ rfl [[3], [4]] (by simp) rfl (by simp)
    (by rw [h3p]; simp)
  have e2 := ffCosts_first F (fSet F [[3], [4]] w₃).2 b6 [[3], [4]] b2 [(N, [1, 1], "n")] rfl (fun _ => rfl) _ rfl _ rfl
  refine ⟨_, congrArg Prod.fst e2, b3.trans h3, ?_⟩
  have h4 : (fSet F [[3], [4]] w₃).2.omega = some 2 := b7.trans h2o
  have h5 : (fSet F [[3], [4]] w₃).2.s.times = [3, 3] := b3
  simp only [h4, h5]
  simp [F, exF]; norm_num

/-- **C87** (violated, basis): a basis named in one call of `create_pulse_sequence` is used by later evaluations, although the solver's
own basis is `None` and later calls name none. -/
theorem c87_violated_basis (L : Lapack (Fin 2)) (H₀ H₁ N : Matrix (Fin 2) (Fin 2) ℂ) :
    let F := exF L H₀ H₁ .base (.list [.ok N [1, 1] "n"])
    F.basis = none ∧ ∃ a, (ffCosts F (fExec F [.create (some [[1], [2]]) (some 7), .create none none] (fConstruct F [1, 1] none))).1 = .ok a ∧
      a.pulse.basis = some 7 := by
  intro F
  refine ⟨rfl, ?_⟩
  let w₀ : FSt (Fin 2) (Fin 2) Nat ℝ := fConstruct F [1, 1] none
  obtain ⟨a1, a2, a3, a4, a5, a6, a7, a8⟩ := exF_set L H₀ H₁ .base (.list [.ok N [1, 1] "n"]) w₀ rfl [[1], [2]] (by simp) rfl (by simp)
    (by simp [w₀, fConstruct, construct_facts])
  let w₁ := (fSet F [[1], [2]] w₀).2
  let q : Seq (Fin 2) Nat := ⟨controlsOf F [[1], [2]], [(N, [1, 1], "n")], w₁.s.times, some 7⟩
  have e1 : createSeq F (some [[1], [2]]) (some 7) w₀ = (none, { w₁ with ids := ["n"], seq := some q }) := by
    have : fSet F [[1], [2]] w₀ = (none, w₁) := Prod.ext a1 rfl
    have ha : w₁.s.amps = some [[1], [2]] := a2
    have hs : w₁.seq = none := a6
    simp only [createSeq, this, ha]
    simp only [buildSeq, createHN_again (F := F) (s := w₁.s) (u := [[1], [2]]) w₁.ids [(N, [1, 1], "n")] rfl, triples_of, hs]
    rfl
  have e2 : createSeq F none none { w₁ with ids := ["n"], seq := some q } = (none, { w₁ with ids := ["n"], seq := some q }) := by
    have ha : w₁.s.amps = some [[1], [2]] := a2
    simp only [createSeq, ha]
    simp only [buildSeq, createHN_again (F := F) (s := w₁.s) (u := [[1], [2]]) ["n"] [(N, [1, 1], "n")] rfl, triples_of]
    refine Prod.ext rfl ?_
    simp only
    congr 2
  have hf : fExec F [.create (some [[1], [2]]) (some 7), .create none none] w₀ = { w₁ with ids := ["n"], seq := some q } := by
    simp only [fExec, List.foldl_cons, List.foldl_nil, FOp.run]
    rw [e1]
    simp only
    rw [e2]
  refine ⟨⟨q, w₁.omega.getD (F.freqs q), ["n"]⟩, ?_, rfl⟩
  show (ffCosts F (fExec F [.create (some [[1], [2]]) (some 7), .create none none] w₀)).1 = _
  rw [hf]
  rfl

/-- Hypotheses of `c87_arguments_partial`, `c87_new_pulse_partial` and `c87_frequencies_partial` are met. -/
example (L : Lapack (Fin 2)) (H₀ H₁ N : Matrix (Fin 2) (Fin 2) ℂ) :
    let F := exF L H₀ H₁ .base (.three fun _ _ u => [.ok N (column u 0) "a", .ok H₀ [1, 1] "b"])
    F.cfg.nCtrl = F.hCtrl.length ∧ ∃ a, (ffCosts F (fExec F [.solver (.set [[1], [2]])] (fConstruct F [1, 1] (some 5)))).1 = .ok a ∧
      a.pulse.noise = [(N, [1, 2], "a"), (H₀, [1, 1], "b")] ∧ a.ids = ["a", "b"] ∧ a.omega = 5 := by
  intro F
  refine ⟨rfl, ?_⟩
  obtain ⟨a1, a2, a3, a4, a5, a6, a7, a8⟩ := exF_set L H₀ H₁ .base (.three fun _ _ u => [.ok N (column u 0) "a", .ok H₀ [1, 1] "b"])
    (fConstruct F [1, 1] (some 5)) rfl [[1], [2]] (by simp) rfl (by simp) (by simp [fConstruct, construct_facts])
  have e1 := ffCosts_first F (fSet F [[1], [2]] (fConstruct F [1, 1] (some 5))).2 a6 [[1], [2]] a2
    [(N, [1, 2], "a"), (H₀, [1, 1], "b")] (by simp [noiseTerms, F, exF, column]) (fun _ => rfl) _ rfl _ rfl
  refine ⟨_, congrArg Prod.fst e1, rfl, rfl, ?_⟩
  simp only [a7]
  rfl

/-- The Monte Carlo solver on the same input: two noise terms, no identifiers (`c87_violated_identifiers`), and a malformed term
(`c87_rejects`). -/
example (L : Lapack (Fin 2)) (H₀ H₁ N : Matrix (Fin 2) (Fin 2) ℂ) :
    let F := exF L H₀ H₁ (.monteCarlo [N, H₀]) (.list [])
    ∃ a, (ffCosts F (fExec F [.solver (.set [[1], [2]])] (fConstruct F [1, 1] (some 5)))).1 = .ok a ∧
      a.pulse.noise = [(N, [1, 1], "Noise0"), (H₀, [1, 1], "Noise1")] ∧ a.ids = [] := by
  intro F
  obtain ⟨a1, a2, a3, a4, a5, a6, a7, a8⟩ := exF_set L H₀ H₁ (.monteCarlo [N, H₀]) (.list [])
    (fConstruct F [1, 1] (some 5)) rfl [[1], [2]] (by simp) rfl (by simp) (by simp [fConstruct, construct_facts])
  have ht : (fSet F [[1], [2]] (fConstruct F [1, 1] (some 5))).2.s.times = [1, 1] := a3
  have e1 := ffCosts_first F (fSet F [[1], [2]] (fConstruct F [1, 1] (some 5))).2 a6 [[1], [2]] a2
    [(N, [1, 1], "Noise0"), (H₀, [1, 1], "Noise1")]
    (by show noiseTerms (exF L H₀ H₁ (.monteCarlo [N, H₀]) (.list [])) _ _ = _
        simp only [noiseTerms, exF, List.mapIdx_cons, List.mapIdx_nil, ht]
        rfl) (fun _ => rfl) _ rfl _ rfl
  exact ⟨_, congrArg Prod.fst e1, rfl, a8⟩

example (L : Lapack (Fin 2)) (H₀ H₁ N : Matrix (Fin 2) (Fin 2) ℂ) :
    let F := exF L H₀ H₁ .base (.list [.ok N [1, 1] "n", .wrongLength])
    (ffCosts F (fExec F [.solver (.set [[1], [2]])] (fConstruct F [1, 1] none))).1 = .error .valueError := by
  intro F
  obtain ⟨a1, a2, a3, a4, a5, a6, a7, a8⟩ := exF_set L H₀ H₁ .base (.list [.ok N [1, 1] "n", .wrongLength])
    (fConstruct F [1, 1] none) rfl [[1], [2]] (by simp) rfl (by simp) (by simp [fConstruct, construct_facts])
  exact (c87_rejects F rfl _ a6).2 _ a2 ⟨.wrongLength, by simp [userTerms, F, exF], Or.inl rfl⟩

end
end Verif.Solver
