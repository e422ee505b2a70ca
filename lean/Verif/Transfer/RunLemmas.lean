import Verif.Transfer.Adjoint

/-! # Recursion equations for calls of transfer function objects (helper lemmas) -/

namespace Verif.Transfer.TF
open Verif

variable {K : Type} [Field K]

/-- The array returned by `tf(y)`, without the object state. -/
def run {c : Nat} (t : TF K c) (y : Pulse K c) : Except PyErr (Pulse K c) := (t.call y).map Prod.snd

/-- The array returned by `tf.gradient_chain_rule(g)`, without the object state. -/
def back {c f : Nat} (t : TF K c) (g : Grads K f c) : Except PyErr (Grads K f c) :=
  (t.grad g).map Prod.snd

section
variable {c c₁ c₂ f : Nat}

@[simp] theorem run_identity (b : Base K) (y : Pulse K c) : (identity b).run y = .ok y := rfl

theorem run_oversampling (b : Base K) (y : Pulse K c) :
    (oversampling b).run y = (checkRows b y >>= fun _ => oversamplingApply b y) := by
  simp only [run, call, bind, Except.bind, pure, Except.pure]
  cases checkRows b y with
  | error e => rfl
  | ok u => cases oversamplingApply b y <;> rfl

theorem run_matrix (b : Base K) (o m) (ch : Option (Tensor K c)) (y : Pulse K c) :
    (matrix b o m ch).run y = (checkRows b y >>= fun _ => getMatrix b m ch >>= fun T =>
      (T.apply y).map (addOffset o)) := by
  simp only [run, call, bind, Except.bind, pure, Except.pure]
  cases checkRows b y with
  | error e => rfl
  | ok u =>
    cases getMatrix b m ch with
    | error e => rfl
    | ok T =>
      simp only
      cases T.apply y <;> rfl

theorem run_concat (b : Base K) (t₁ t₂ : TF K c) (y : Pulse K c) :
    (concat b t₁ t₂).run y = (checkRows b y >>= fun _ => t₁.run y >>= t₂.run) := by
  simp only [run, call, bind, Except.bind, pure, Except.pure]
  cases checkRows b y with
  | error e => rfl
  | ok u =>
    cases t₁.call y with
    | error e => rfl
    | ok p =>
      obtain ⟨t, x⟩ := p
      simp only [Except.map]
      cases t₂.call x with
      | error e => rfl
      | ok q => rfl

theorem run_parallel (b : Base K) (t₁ : TF K c₁) (t₂ : TF K c₂) (y : Pulse K (c₁ + c₂)) :
    (parallel b t₁ t₂).run y = (checkRows b y >>= fun _ => t₁.run (leftCols y) >>= fun x₁ =>
      t₂.run (rightCols y) >>= fun x₂ => hcat x₁ x₂) := by
  simp only [run, call, bind, Except.bind, pure, Except.pure]
  cases checkRows b y with
  | error e => rfl
  | ok u =>
    cases t₁.call (leftCols y) with
    | error e => rfl
    | ok p =>
      simp only [Except.map]
      cases t₂.call (rightCols y) with
      | error e => rfl
      | ok q =>
        simp only
        cases hcat p.2 q.2 <;> rfl

@[simp] theorem back_identity (b : Base K) (g : Grads K f c) : (identity b).back g = .ok g := rfl

theorem back_oversampling (b : Base K) (g : Grads K f c) :
    (oversampling b).back g = oversamplingAdj b g := by
  simp only [back, grad, bind, Except.bind, pure, Except.pure]
  cases oversamplingAdj b g <;> rfl

theorem back_matrix (b : Base K) (o m) (ch : Option (Tensor K c)) (g : Grads K f c) :
    (matrix b o m ch).back g = if g.length = b.numX then
      (getMatrix b m ch >>= fun T => T.applyAdj g) else .error .assertionError := by
  simp only [back, grad, bind, Except.bind, pure, Except.pure]
  split
  · cases getMatrix b m ch with
    | error e => rfl
    | ok T =>
      simp only
      cases T.applyAdj g <;> rfl
  · rfl

theorem back_concat (b : Base K) (t₁ t₂ : TF K c) (g : Grads K f c) :
    (concat b t₁ t₂).back g = (t₂.back g >>= t₁.back) := by
  simp only [back, grad, bind, Except.bind, pure, Except.pure]
  cases t₂.grad g with
  | error e => rfl
  | ok p =>
    obtain ⟨t, x⟩ := p
    simp only [Except.map]
    cases t₁.grad x <;> rfl

theorem back_parallel (b : Base K) (t₁ : TF K c₁) (t₂ : TF K c₂) (g : Grads K f (c₁ + c₂)) :
    (parallel b t₁ t₂).back g = (t₁.back (leftGrads g) >>= fun g₁ =>
      t₂.back (rightGrads g) >>= fun g₂ => hcatG g₁ g₂) := by
  simp only [back, grad, bind, Except.bind, pure, Except.pure]
  cases t₁.grad (leftGrads g) with
  | error e => rfl
  | ok p =>
    simp only [Except.map]
    cases t₂.grad (rightGrads g) with
    | error e => rfl
    | ok q =>
      simp only
      cases hcatG p.2 q.2 <;> rfl

/-- Two objects nobody can tell apart by calling them or asking for gradients. -/
def Same {c : Nat} (t t' : TF K c) : Prop :=
  t.base = t'.base ∧ (∀ y, t.run y = t'.run y) ∧ ∀ (f : Nat) (g : Grads K f c), t.back g = t'.back g

theorem Same.refl (t : TF K c) : Same t t := ⟨rfl, fun _ => rfl, fun _ _ => rfl⟩

theorem Same.trans {t u v : TF K c} (h : Same t u) (h' : Same u v) : Same t v :=
  ⟨h.1.trans h'.1, fun y => (h.2.1 y).trans (h'.2.1 y), fun f g => (h.2.2 f g).trans (h'.2.2 f g)⟩

theorem same_matrix (b : Base K) (o m) (ch : Option (Tensor K c)) (T : Tensor K c)
    (h : getMatrix b m ch = .ok T) : Same (matrix b o m ch) (matrix b o m (some T)) := by
  refine ⟨rfl, ?_, ?_⟩
  · intro y; rw [run_matrix, run_matrix, h]; rfl
  · intro f g; rw [back_matrix, back_matrix, h]; rfl

theorem same_concat (b : Base K) {t₁ t₁' t₂ t₂' : TF K c} (h₁ : Same t₁ t₁') (h₂ : Same t₂ t₂') :
    Same (concat b t₁ t₂) (concat b t₁' t₂') := by
  refine ⟨rfl, ?_, ?_⟩
  · intro y; rw [run_concat, run_concat, h₁.2.1, show t₂.run = t₂'.run from funext h₂.2.1]
  · intro f g
    rw [back_concat, back_concat, h₂.2.2, show t₁.back (f := f) = t₁'.back from funext (h₁.2.2 f)]

theorem same_parallel (b : Base K) {t₁ t₁' : TF K c₁} {t₂ t₂' : TF K c₂} (h₁ : Same t₁ t₁')
    (h₂ : Same t₂ t₂') : Same (parallel b t₁ t₂) (parallel b t₁' t₂') := by
  refine ⟨rfl, ?_, ?_⟩
  · intro y; rw [run_parallel, run_parallel, h₁.2.1, show t₂.run = t₂'.run from funext h₂.2.1]
  · intro f g
    rw [back_parallel, back_parallel, h₁.2.2,
      show t₂.back (f := f) = t₂'.back from funext (h₂.2.2 f)]

end

/-- Calling an object does not change what it computes afterwards. -/
theorem call_same : ∀ {c : Nat} (t t' : TF K c) (y x : Pulse K c), t.call y = .ok (t', x) → Same t t' := by
  intro c t
  induction t with
  | identity b => intro t' y x h; simp only [call, Except.ok.injEq, Prod.mk.injEq] at h; rw [← h.1]; exact .refl _
  | oversampling b =>
    intro t' y x h
    simp only [call, bind, Except.bind, pure, Except.pure] at h
    split at h
    · simp at h
    · split at h
      · simp at h
      · simp only [Except.ok.injEq, Prod.mk.injEq] at h; rw [← h.1]; exact .refl _
  | matrix b o m ch =>
    intro t' y x h
    simp only [call, bind, Except.bind, pure, Except.pure] at h
    split at h
    · simp at h
    · split at h
      · simp at h
      · rename_i T hT
        split at h
        · simp at h
        · simp only [Except.ok.injEq, Prod.mk.injEq] at h; rw [← h.1]; exact same_matrix _ _ _ _ _ hT
  | concat b t₁ t₂ ih₁ ih₂ =>
    intro t' y x h
    simp only [call, bind, Except.bind, pure, Except.pure] at h
    split at h
    · simp at h
    · split at h
      · simp at h
      · rename_i p hp
        split at h
        · simp at h
        · rename_i q hq
          simp only [Except.ok.injEq, Prod.mk.injEq] at h; rw [← h.1]
          exact same_concat _ (ih₁ _ _ _ hp) (ih₂ _ _ _ hq)
  | parallel b t₁ t₂ ih₁ ih₂ =>
    intro t' y x h
    simp only [call, bind, Except.bind, pure, Except.pure] at h
    split at h
    · simp at h
    · split at h
      · simp at h
      · rename_i p hp
        split at h
        · simp at h
        · rename_i q hq
          split at h
          · simp at h
          · simp only [Except.ok.injEq, Prod.mk.injEq] at h; rw [← h.1]
            exact same_parallel _ (ih₁ _ _ _ hp) (ih₂ _ _ _ hq)

/-- Asking for a gradient does not change what the object computes afterwards. -/
theorem grad_same {f : Nat} : ∀ {c : Nat} (t t' : TF K c) (g h : Grads K f c),
    t.grad g = .ok (t', h) → Same t t' := by
  intro c t
  induction t with
  | identity b => intro t' y x h; simp only [grad, Except.ok.injEq, Prod.mk.injEq] at h; rw [← h.1]; exact .refl _
  | oversampling b =>
    intro t' y x h
    simp only [grad, bind, Except.bind, pure, Except.pure] at h
    split at h
    · simp at h
    · simp only [Except.ok.injEq, Prod.mk.injEq] at h; rw [← h.1]; exact .refl _
  | matrix b o m ch =>
    intro t' y x h
    simp only [grad, bind, Except.bind, pure, Except.pure] at h
    split at h
    · split at h
      · simp at h
      · rename_i T hT
        split at h
        · simp at h
        · simp only [Except.ok.injEq, Prod.mk.injEq] at h; rw [← h.1]; exact same_matrix _ _ _ _ _ hT
    · simp at h
  | concat b t₁ t₂ ih₁ ih₂ =>
    intro t' y x h
    simp only [grad, bind, Except.bind, pure, Except.pure] at h
    split at h
    · simp at h
    · rename_i p hp
      split at h
      · simp at h
      · rename_i q hq
        simp only [Except.ok.injEq, Prod.mk.injEq] at h; rw [← h.1]
        exact same_concat _ (ih₁ _ _ _ hq) (ih₂ _ _ _ hp)
  | parallel b t₁ t₂ ih₁ ih₂ =>
    intro t' y x h
    simp only [grad, bind, Except.bind, pure, Except.pure] at h
    split at h
    · simp at h
    · rename_i p hp
      split at h
      · simp at h
      · rename_i q hq
        split at h
        · simp at h
        · simp only [Except.ok.injEq, Prod.mk.injEq] at h; rw [← h.1]
          exact same_parallel _ (ih₁ _ _ _ hp) (ih₂ _ _ _ hq)

theorem checkRows_ok {c : Nat} {b : Base K} {y : Pulse K c} {u : Unit} (h : checkRows b y = .ok u) :
    y.length = b.numY := by
  unfold checkRows at h
  split at h
  · simp at h
  · split at h
    · assumption
    · simp at h

theorem bind_ok {α β : Type} {x : Except PyErr α} {k : α → Except PyErr β} {v : β}
    (h : (x >>= k) = .ok v) : ∃ a, x = .ok a ∧ k a = .ok v := by
  cases x with
  | error e => simp [bind, Except.bind] at h
  | ok a => exact ⟨a, rfl, h⟩

theorem map_ok {α β : Type} {x : Except PyErr α} {k : α → β} {v : β}
    (h : x.map k = .ok v) : ∃ a, x = .ok a ∧ k a = v := by
  cases x with
  | error e => simp [Except.map] at h
  | ok a => exact ⟨a, rfl, by simpa [Except.map] using h⟩

theorem Tensor.apply_length {c : Nat} {T : Tensor K c} {y x : Pulse K c} (h : T.apply y = .ok x) :
    x.length = T.nx ∧ (y.length = T.ny ∨ T.ny = 1 ∨ y.length = 1) := by
  unfold Tensor.apply at h
  split at h
  · simp only [Except.ok.injEq] at h; subst h; simp_all
  · split at h
    · simp only [Except.ok.injEq] at h; subst h; simp_all
    · split at h
      · simp only [Except.ok.injEq] at h; subst h; simp_all
      · simp at h

theorem addOffset_length {c : Nat} (o : Option K) (x : Pulse K c) : (addOffset o x).length = x.length := by
  cases o <;> simp [addOffset]

end Verif.Transfer.TF
