import Verif.Py

/-!
# C77: stored samples and redrawing (noise.py:344-387)

The base class `NoiseTraceGenerator`.  `_sample_noise` of the subclass is an arbitrary function of the state of the random
generator (and of whatever else it reads); it may raise.  Simplification: when it raises, nothing is stored.
-/

namespace Verif.Noise
open Verif

section
variable {A γ : Type}

/-- A `NoiseTraceGenerator`; a count of `0` stands for `None` or `0`. -/
structure Base (A : Type) where
  samples : Option A
  nSamples : Nat
  nTraces : Nat
  nOps : Nat
  redraw : Bool

/-- `_sample_noise`. -/
abbrev Draw (A γ : Type) := γ → Except PyErr A × γ

/-- `noise_samples`, noise.py:354-358. -/
def Base.read (draw : Draw A γ) (b : Base A) (g : γ) : Except PyErr A × Base A × γ :=
  match b.samples, b.redraw with
  | some a, false => (.ok a, b, g)
  | _, _ => match draw g with
    | (.error e, g') => (.error e, b, g')
    | (.ok a, g') => (.ok a, { b with samples := some a }, g')

/-- The operations of a user. -/
inductive Op where
  | samples
  | nSamples
  | nTraces
  | nOps
  | setRedraw (b : Bool)

/-- The results. -/
inductive Out (A : Type) where
  | samples (a : A)
  | count (n : Nat)
  | none

/-- A count: the stored one, or the shape of the samples, noise.py:360-382. -/
def Base.count (draw : Draw A γ) (axis : A → Nat) (n : Nat) (b : Base A) (g : γ) : Except PyErr (Out A) × Base A × γ :=
  if n ≠ 0 then (.ok (.count n), b, g)
  else match b.read draw g with
    | (.error e, b', g') => (.error e, b', g')
    | (.ok a, b', g') => (.ok (.count (axis a)), b', g')

/-- One operation; `shape` is the shape of an array. -/
def Base.step (draw : Draw A γ) (shape : A → Nat × Nat × Nat) (b : Base A) (g : γ) : Op → Except PyErr (Out A) × Base A × γ
  | .samples => match b.read draw g with
    | (.error e, b', g') => (.error e, b', g')
    | (.ok a, b', g') => (.ok (.samples a), b', g')
  | .nSamples => b.count draw (fun a => (shape a).2.2) b.nSamples g
  | .nTraces => b.count draw (fun a => (shape a).2.1) b.nTraces g
  | .nOps => b.count draw (fun a => (shape a).1) b.nOps g
  | .setRedraw r => (.ok .none, { b with redraw := r }, g)

/-- A history: the outputs and the final state. -/
def Base.run (draw : Draw A γ) (shape : A → Nat × Nat × Nat) : Base A → γ → List Op → List (Except PyErr (Out A)) × Base A × γ
  | b, g, [] => ([], b, g)
  | b, g, op :: ops =>
    let (o, b', g') := b.step draw shape g op
    let (os, b'', g'') := Base.run draw shape b' g' ops
    (o :: os, b'', g'')

/-! ## Proofs -/

variable (draw : Draw A γ) (shape : A → Nat × Nat × Nat)

/-- The operations that never switch redrawing on. -/
def Quiet (ops : List Op) : Prop := ∀ r, Op.setRedraw r ∈ ops → r = false

theorem step_stored {b : Base A} {g : γ} {a : A} (hr : b.redraw = false) (hs : b.samples = some a) {op : Op}
    (hq : ∀ r, op = .setRedraw r → r = false) :
    ∃ o, b.step draw shape g op = (.ok o, b, g) ∧ ∀ x, o = .samples x → x = a := by
  have hread : b.read draw g = (.ok a, b, g) := by unfold Base.read; rw [hs, hr]
  have hcount : ∀ (axis : A → Nat) (n : Nat), ∃ k, b.count draw axis n g = (.ok (.count k), b, g) := by
    intro axis n
    unfold Base.count
    by_cases hn : n ≠ 0
    · exact ⟨n, by rw [if_pos hn]⟩
    · exact ⟨axis a, by rw [if_neg hn, hread]⟩
  cases op with
  | samples => exact ⟨.samples a, by unfold Base.step; simp only [hread], fun x hx => by cases hx; rfl⟩
  | nSamples => obtain ⟨k, hk⟩ := hcount (fun a => (shape a).2.2) b.nSamples; exact ⟨.count k, hk, fun x hx => by cases hx⟩
  | nTraces => obtain ⟨k, hk⟩ := hcount (fun a => (shape a).2.1) b.nTraces; exact ⟨.count k, hk, fun x hx => by cases hx⟩
  | nOps => obtain ⟨k, hk⟩ := hcount (fun a => (shape a).1) b.nOps; exact ⟨.count k, hk, fun x hx => by cases hx⟩
  | setRedraw r =>
    refine ⟨.none, ?_, fun x hx => by cases hx⟩
    have := hq r rfl
    subst this
    unfold Base.step
    rw [← hr]

/-- **C77** (stored samples): without redrawing, samples that are present (precalculated or drawn) are returned by every read, are
never replaced, and no random numbers are consumed. -/
theorem c77_stored : ∀ (ops : List Op) (b : Base A) (g : γ) (a : A), b.redraw = false → b.samples = some a → Quiet ops →
    (∀ o ∈ (b.run draw shape g ops).1, ∃ o', o = .ok o' ∧ ∀ x, o' = .samples x → x = a) ∧
      (b.run draw shape g ops).2 = (b, g)
  | [], b, g, a, _, _, _ => by simp [Base.run]
  | op :: ops, b, g, a, hr, hs, hq => by
    obtain ⟨o, h1, h2⟩ := step_stored draw shape (g := g) hr hs (op := op) fun r h => hq r (by rw [h]; simp)
    have ih := c77_stored ops b g a hr hs fun r h => hq r (by simp [h])
    unfold Base.run
    rw [h1]
    simp only [List.mem_cons]
    refine ⟨fun o' ho' => ?_, ih.2⟩
    rcases ho' with rfl | ho'
    · exact ⟨o, rfl, h2⟩
    · exact ih.1 o' ho'

/-- **C77** (stability): without redrawing, all reads that return samples in a history return the same samples. -/
theorem c77_stable : ∀ (ops : List Op) (b : Base A) (g : γ), b.redraw = false → Quiet ops →
    ∀ x y, .ok (.samples x) ∈ (b.run draw shape g ops).1 → .ok (.samples y) ∈ (b.run draw shape g ops).1 → x = y
  | [], b, g, _, _, x, y, hx, _ => by simp [Base.run] at hx
  | op :: ops, b, g, hr, hq, x, y, hx, hy => by
    cases hs : b.samples with
    | some a =>
      have h := (c77_stored draw shape (op :: ops) b g a hr hs hq).1
      obtain ⟨o, h1, h2⟩ := h _ hx
      obtain ⟨o', h3, h4⟩ := h _ hy
      cases h1; cases h3
      rw [h2 x rfl, h4 y rfl]
    | none =>
      have hq' : Quiet ops := fun r h => hq r (by simp [h])
      -- the first operation leaves nothing, or samples `a` of which it may report only `a`
      have key : ∃ o b' g', b.step draw shape g op = (o, b', g') ∧ b'.redraw = false ∧
          ((∀ x, o ≠ .ok (.samples x)) ∨ ∃ a, b'.samples = some a ∧ o = .ok (.samples a)) := by
        have hread : (∃ e g', b.read draw g = (.error e, b, g')) ∨
            ∃ a g', b.read draw g = (.ok a, { b with samples := some a }, g') := by
          unfold Base.read
          rw [hs]
          rcases draw g with ⟨_ | a, g'⟩
          · exact .inl ⟨_, g', rfl⟩
          · exact .inr ⟨a, g', rfl⟩
        have hcount : ∀ (axis : A → Nat) (n : Nat), ∃ o b' g', b.count draw axis n g = (o, b', g') ∧ b'.redraw = false ∧
            ∀ x, o ≠ .ok (.samples x) := by
          intro axis n
          unfold Base.count
          by_cases hn : n ≠ 0
          · exact ⟨_, b, g, by rw [if_pos hn], hr, fun x hx => by cases hx⟩
          · rw [if_neg hn]
            rcases hread with ⟨e, g', h⟩ | ⟨a, g', h⟩
            · rw [h]; exact ⟨_, _, _, rfl, hr, fun x hx => by cases hx⟩
            · rw [h]; exact ⟨_, _, _, rfl, hr, fun x hx => by cases hx⟩
        cases op with
        | samples =>
          unfold Base.step
          rcases hread with ⟨e, g', h⟩ | ⟨a, g', h⟩
          · simp only [h]; exact ⟨_, _, _, rfl, hr, .inl fun x hx => by cases hx⟩
          · simp only [h]; exact ⟨_, _, _, rfl, hr, .inr ⟨a, rfl, rfl⟩⟩
        | nSamples => obtain ⟨o, b', g', h1, h2, h3⟩ := hcount _ _; exact ⟨o, b', g', h1, h2, .inl h3⟩
        | nTraces => obtain ⟨o, b', g', h1, h2, h3⟩ := hcount _ _; exact ⟨o, b', g', h1, h2, .inl h3⟩
        | nOps => obtain ⟨o, b', g', h1, h2, h3⟩ := hcount _ _; exact ⟨o, b', g', h1, h2, .inl h3⟩
        | setRedraw r =>
          have := hq r (by simp)
          subst this
          exact ⟨_, _, _, rfl, rfl, .inl fun x hx => by cases hx⟩
      obtain ⟨o, b', g', hstep, hr', hcase⟩ := key
      unfold Base.run at hx hy
      rw [hstep] at hx hy
      simp only [List.mem_cons] at hx hy
      have ih := c77_stable ops b' g' hr' hq' x y
      rcases hcase with hno | ⟨a, ha, rfl⟩
      · rcases hx with hx | hx
        · exact absurd hx.symm (hno x)
        · rcases hy with hy | hy
          · exact absurd hy.symm (hno y)
          · exact ih hx hy
      · have h := (c77_stored draw shape ops b' g' a hr' ha hq').1
        have hval : ∀ z, (Except.ok (Out.samples z) : Except PyErr (Out A)) = .ok (.samples a) ∨
            .ok (.samples z) ∈ (b'.run draw shape g' ops).1 → z = a := by
          rintro z (hz | hz)
          · cases hz; rfl
          · obtain ⟨o, h1, h2⟩ := h _ hz
            cases h1
            exact h2 z rfl
        rw [hval x hx, hval y hy]

/-- Specification: the draws, one after the other. -/
def draws : γ → Nat → List (Except PyErr A)
  | _, 0 => []
  | g, n + 1 => (draw g).1 :: draws (draw g).2 n

/-- Specification: the sample reads among the outputs. -/
def reads : List Op → List (Except PyErr (Out A)) → List (Except PyErr (Out A))
  | .samples :: ops, o :: os => o :: reads ops os
  | _ :: ops, _ :: os => reads ops os
  | _, _ => []

/-- The operations that never switch redrawing off. -/
def Loud (ops : List Op) : Prop := ∀ r, Op.setRedraw r ∈ ops → r = true

/-- **C77** (redrawing): with redrawing, and with the counts given, the reads of the samples are exactly the successive draws of
the random generator, whatever else is read in between and whatever was stored before. -/
theorem c77_redraw : ∀ (ops : List Op) (b : Base A) (g : γ), b.redraw = true → Loud ops → b.nSamples ≠ 0 → b.nTraces ≠ 0 →
    b.nOps ≠ 0 → reads ops (b.run draw shape g ops).1 =
      (draws draw g ((ops.filter fun op => op matches .samples).length)).map fun r => r.map Out.samples
  | [], b, g, _, _, _, _, _ => rfl
  | op :: ops, b, g, hr, hq, h1, h2, h3 => by
    have hq' : Loud ops := fun r h => hq r (by simp [h])
    unfold Base.run
    cases op with
    | samples =>
      have hstep : b.step draw shape g .samples = ((draw g).1.map Out.samples,
          (match (draw g).1 with
            | .error _ => b
            | .ok a => { b with samples := some a }), (draw g).2) := by
        unfold Base.step Base.read
        rw [hr]
        rcases hd : draw g with ⟨e | a, g'⟩ <;> cases b.samples <;> rfl
      rw [hstep]
      simp only [reads, List.filter_cons_of_pos, List.length_cons, draws, List.map_cons]
      congr 1
      refine c77_redraw ops _ _ ?_ hq' ?_ ?_ ?_ <;> · split <;> assumption
    | nSamples =>
      simp only [Base.step, Base.count, h1, ne_eq, not_false_eq_true, if_true, reads]
      exact c77_redraw ops b g hr hq' h1 h2 h3
    | nTraces =>
      simp only [Base.step, Base.count, h2, ne_eq, not_false_eq_true, if_true, reads]
      exact c77_redraw ops b g hr hq' h1 h2 h3
    | nOps =>
      simp only [Base.step, Base.count, h3, ne_eq, not_false_eq_true, if_true, reads]
      exact c77_redraw ops b g hr hq' h1 h2 h3
    | setRedraw r =>
      have := hq r (by simp)
      subst this
      simp only [Base.step, reads]
      exact c77_redraw ops { b with redraw := true } g rfl hq' h1 h2 h3

/-- A counter as random generator: with redrawing the reads differ, without they agree; precalculated samples survive. -/
example : let draw : Draw Nat Nat := fun g => (.ok g, g + 1)
    let sh : Nat → Nat × Nat × Nat := fun n => (n, n, n)
    ((Base.mk none 1 1 1 true).run draw sh 7 [.samples, .nTraces, .samples]).1 = [.ok (.samples 7), .ok (.count 1), .ok (.samples 8)] ∧
    ((Base.mk none 1 1 1 false).run draw sh 7 [.samples, .nTraces, .samples]).1 = [.ok (.samples 7), .ok (.count 1), .ok (.samples 7)] ∧
    ((Base.mk (some 3) 0 0 0 false).run draw sh 7 [.samples, .nTraces, .samples]).1 = [.ok (.samples 3), .ok (.count 3), .ok (.samples 3)] ∧
    -- a count that is not given costs a draw
    ((Base.mk none 0 0 0 true).run draw sh 7 [.samples, .nTraces, .samples]).1 = [.ok (.samples 7), .ok (.count 8), .ok (.samples 9)] :=
  ⟨rfl, rfl, rfl, rfl⟩

end
end Verif.Noise
