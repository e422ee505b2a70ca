import Verif.Transfer.ComposeThms

/-! # Property theorems C10: changing the time grid of a used transfer function

Full statement (C10): for every object and every sequence of `set_times`, calls and gradient requests, the
next call after a `set_times` behaves as for an unused object with that grid.  The code violates it for
matrix transfer functions (`_transfer_matrix` is never reset, transfer_function.py:351-419 and 1088-1089):
see `c10_violated_*`.  What holds is stated in the `_partial` theorems. -/

namespace Verif.Transfer
open Verif TF

section
variable {K : Type} [Field K] {c : Nat}

/-- One user operation on an object. -/
inductive UserStep : TF K c → TF K c → Prop
  | call {t u : TF K c} (y x : Pulse K c) : t.call y = .ok (u, x) → UserStep t u
  | grad {t u : TF K c} {f : Nat} (g h : Grads K f c) : t.grad g = .ok (u, h) → UserStep t u
  | setTimes {t u : TF K c} (ys : List K) : t.setTimes ys = .ok u → UserStep t u

/-- **C10** The full statement as a proposition about an object: whatever happened before, after the next
successful `set_times` every call behaves as for the unused object with that grid. -/
def FollowsGrid (t : TF K c) : Prop :=
  ∀ (u v w : TF K c) (ys : List K) (y : Pulse K c),
    Relation.ReflTransGen UserStep t u → t.setTimes ys = .ok w → u.setTimes ys = .ok v →
      v.run y = w.run y

/-- The object contains no matrix transfer function. -/
def NoMatrix : {c : Nat} → TF K c → Prop
  | _, .identity _ => True
  | _, .oversampling _ => True
  | _, .matrix _ _ _ _ => False
  | _, .concat _ t₁ t₂ => NoMatrix t₁ ∧ NoMatrix t₂
  | _, .parallel _ t₁ t₂ => NoMatrix t₁ ∧ NoMatrix t₂

/-- Same configuration up to the time attributes and the values of the caches of matrix parts, which must
be empty in both or not present. -/
inductive SameConfig : {c : Nat} → TF K c → TF K c → Prop
  | identity {c : Nat} {b b' : Base K} : b.bound = b'.bound → b.oversampling = b'.oversampling →
      SameConfig (c := c) (.identity b) (.identity b')
  | oversampling {c : Nat} {b b' : Base K} : b.bound = b'.bound → b.oversampling = b'.oversampling →
      SameConfig (c := c) (.oversampling b) (.oversampling b')
  | matrix {c : Nat} {b b' : Base K} {o m} {ch : Option (Tensor K c)} : b.bound = b'.bound →
      b.oversampling = b'.oversampling → SameConfig (.matrix b o m ch) (.matrix b' o m ch)
  | concat {c : Nat} {b b' : Base K} {t₁ t₁' t₂ t₂' : TF K c} : b.bound = b'.bound →
      b.oversampling = b'.oversampling → SameConfig t₁ t₁' → SameConfig t₂ t₂' →
      SameConfig (.concat b t₁ t₂) (.concat b' t₁' t₂')
  | parallel {c₁ c₂ : Nat} {b b' : Base K} {t₁ t₁' : TF K c₁} {t₂ t₂' : TF K c₂} : b.bound = b'.bound →
      b.oversampling = b'.oversampling → SameConfig t₁ t₁' → SameConfig t₂ t₂' →
      SameConfig (.parallel b t₁ t₂) (.parallel b' t₁' t₂')

theorem SameConfig.refl : ∀ {c : Nat} (t : TF K c), SameConfig t t := by
  intro c t
  induction t with
  | identity b => exact .identity rfl rfl
  | oversampling b => exact .oversampling rfl rfl
  | matrix b o m ch => exact .matrix rfl rfl
  | concat b t₁ t₂ h₁ h₂ => exact .concat rfl rfl h₁ h₂
  | parallel b t₁ t₂ h₁ h₂ => exact .parallel rfl rfl h₁ h₂

theorem base_setTimes_congr {b b' : Base K} (h1 : b.bound = b'.bound)
    (h2 : b.oversampling = b'.oversampling) (ys : List K) : b.setTimes ys = b'.setTimes ys := by
  obtain ⟨bd, os, ny, yt, nx, xt⟩ := b
  obtain ⟨bd', os', ny', yt', nx', xt'⟩ := b'
  simp only at h1 h2
  subst h1; subst h2
  unfold Base.setTimes
  rcases bd with _ | ⟨code, k⟩
  · rfl
  · cases code <;> rfl

/-- `set_times` overwrites every time attribute. -/
theorem SameConfig.setTimes_eq : ∀ {c : Nat} {t u : TF K c}, SameConfig t u → ∀ ys : List K,
    t.setTimes ys = u.setTimes ys := by
  intro c t u h
  induction h with
  | identity h1 h2 => intro ys; simp only [TF.setTimes, base_setTimes_congr h1 h2]
  | oversampling h1 h2 => intro ys; simp only [TF.setTimes, base_setTimes_congr h1 h2]
  | matrix h1 h2 => intro ys; simp only [TF.setTimes, base_setTimes_congr h1 h2]
  | @concat c b b' t₁ t₁' t₂ t₂' h1 h2 _ _ i1 i2 =>
    intro ys
    simp only [TF.setTimes, i1 ys, i2, copyTimes, h1, h2]
  | @parallel c₁ c₂ b b' t₁ t₁' t₂ t₂' h1 h2 _ _ i1 i2 =>
    intro ys
    simp only [TF.setTimes, i1 ys, i2, copyTimes, h1, h2]

theorem sameConfig_setTimes : ∀ {c : Nat} (t u : TF K c) (ys : List K), t.setTimes ys = .ok u →
    SameConfig t u := by
  intro c t
  induction t with
  | identity b =>
    intro u ys h
    simp only [TF.setTimes] at h
    obtain ⟨b', hb, h⟩ := bind_ok h
    simp only [pure, Except.pure, Except.ok.injEq] at h
    subst h
    exact .identity (setTimes_base hb).1.symm (setTimes_base hb).2.symm
  | oversampling b =>
    intro u ys h
    simp only [TF.setTimes] at h
    obtain ⟨b', hb, h⟩ := bind_ok h
    simp only [pure, Except.pure, Except.ok.injEq] at h
    subst h
    exact .oversampling (setTimes_base hb).1.symm (setTimes_base hb).2.symm
  | matrix b o m ch =>
    intro u ys h
    simp only [TF.setTimes] at h
    obtain ⟨b', hb, h⟩ := bind_ok h
    simp only [pure, Except.pure, Except.ok.injEq] at h
    subst h
    exact .matrix (setTimes_base hb).1.symm (setTimes_base hb).2.symm
  | concat b t₁ t₂ i1 i2 =>
    intro u ys h
    obtain ⟨t₁', t₂', x, h₁, hx, h₂, rfl⟩ := setTimes_concat h
    exact .concat rfl rfl (i1 _ _ h₁) (i2 _ _ h₂)
  | parallel b t₁ t₂ i1 i2 =>
    intro u ys h
    obtain ⟨t₁', t₂', h₁, h₂, rfl⟩ := setTimes_parallel h
    exact .parallel rfl rfl (i1 _ _ h₁) (i2 _ _ h₂)

theorem noMatrix_call : ∀ {c : Nat} (t u : TF K c) (y x : Pulse K c), NoMatrix t → t.call y = .ok (u, x) →
    u = t := by
  intro c t
  induction t with
  | identity b => intro u y x _ h; simp only [call, Except.ok.injEq, Prod.mk.injEq] at h; exact h.1.symm
  | oversampling b =>
    intro u y x _ h
    simp only [call, bind, Except.bind, pure, Except.pure] at h
    split at h
    · simp at h
    · split at h
      · simp at h
      · simp only [Except.ok.injEq, Prod.mk.injEq] at h; exact h.1.symm
  | matrix b o m ch => intro u y x hn; exact hn.elim
  | concat b t₁ t₂ i1 i2 =>
    intro u y x hn h
    simp only [call, bind, Except.bind, pure, Except.pure] at h
    split at h
    · simp at h
    · split at h
      · simp at h
      · rename_i p hp
        split at h
        · simp at h
        · rename_i q hq
          simp only [Except.ok.injEq, Prod.mk.injEq] at h
          rw [← h.1, i1 _ _ _ hn.1 hp, i2 _ _ _ hn.2 hq]
  | parallel b t₁ t₂ i1 i2 =>
    intro u y x hn h
    simp only [call, bind, Except.bind, pure, Except.pure] at h
    split at h
    · simp at h
    · split at h
      · simp at h
      · rename_i p hp
        split at h
        · simp at h
        · rename_i q hq
          split at h
          · simp at h
          · simp only [Except.ok.injEq, Prod.mk.injEq] at h
            rw [← h.1, i1 _ _ _ hn.1 hp, i2 _ _ _ hn.2 hq]

theorem noMatrix_grad {f : Nat} : ∀ {c : Nat} (t u : TF K c) (g h : Grads K f c), NoMatrix t →
    t.grad g = .ok (u, h) → u = t := by
  intro c t
  induction t with
  | identity b => intro u y x _ h; simp only [grad, Except.ok.injEq, Prod.mk.injEq] at h; exact h.1.symm
  | oversampling b =>
    intro u y x _ h
    simp only [grad, bind, Except.bind, pure, Except.pure] at h
    split at h
    · simp at h
    · simp only [Except.ok.injEq, Prod.mk.injEq] at h; exact h.1.symm
  | matrix b o m ch => intro u y x hn; exact hn.elim
  | concat b t₁ t₂ i1 i2 =>
    intro u y x hn h
    simp only [grad, bind, Except.bind, pure, Except.pure] at h
    split at h
    · simp at h
    · rename_i p hp
      split at h
      · simp at h
      · rename_i q hq
        simp only [Except.ok.injEq, Prod.mk.injEq] at h
        rw [← h.1, i1 _ _ _ hn.1 hq, i2 _ _ _ hn.2 hp]
  | parallel b t₁ t₂ i1 i2 =>
    intro u y x hn h
    simp only [grad, bind, Except.bind, pure, Except.pure] at h
    split at h
    · simp at h
    · rename_i p hp
      split at h
      · simp at h
      · rename_i q hq
        split at h
        · simp at h
        · simp only [Except.ok.injEq, Prod.mk.injEq] at h
          rw [← h.1, i1 _ _ _ hn.1 hp, i2 _ _ _ hn.2 hq]

theorem NoMatrix.congr : ∀ {c : Nat} {t u : TF K c}, SameConfig t u → NoMatrix t → NoMatrix u := by
  intro c t u h
  induction h with
  | identity => intro _; trivial
  | oversampling => intro _; trivial
  | matrix => intro h; exact h.elim
  | concat _ _ _ _ i1 i2 => intro h; exact ⟨i1 h.1, i2 h.2⟩
  | parallel _ _ _ _ i1 i2 => intro h; exact ⟨i1 h.1, i2 h.2⟩

/-- **C10 (partial)** Objects built from identity, oversampling, concatenated and parallel transfer
functions follow every change of the grid, after any history of calls, gradients and grid changes.
Missing for the full statement: matrix transfer functions (see the violations below). -/
theorem c10_no_matrix_partial (t : TF K c) (h : NoMatrix t) : FollowsGrid t := by
  intro u v w ys y hr hw hv
  have : NoMatrix u ∧ ∀ ys, t.setTimes ys = u.setTimes ys := by
    clear hv hw
    induction hr with
    | refl => exact ⟨h, fun _ => rfl⟩
    | tail _ hs ih =>
      rcases hs with ⟨y, x, hs⟩ | ⟨g, h', hs⟩ | ⟨ys', hs⟩
      · rw [noMatrix_call _ _ _ _ ih.1 hs]; exact ih
      · rw [noMatrix_grad _ _ _ _ ih.1 hs]; exact ih
      · have := sameConfig_setTimes _ _ _ hs
        exact ⟨NoMatrix.congr this ih.1, fun zs => (ih.2 zs).trans (this.setTimes_eq zs)⟩
  rw [this.2 ys, hv] at hw
  simp only [Except.ok.injEq] at hw
  rw [hw]

/-- **C10 (partial)** A matrix transfer function (or anything containing them) that has not been called
yet follows every change of the grid.  Missing: calls between the changes. -/
theorem c10_unused_partial (t u v w : TF K c) (ys : List K) (y : Pulse K c)
    (hr : Relation.ReflTransGen (fun a b : TF K c => ∃ zs, a.setTimes zs = .ok b) t u)
    (hw : t.setTimes ys = .ok w) (hv : u.setTimes ys = .ok v) : v.run y = w.run y := by
  have : ∀ ys, t.setTimes ys = u.setTimes ys := by
    clear hv hw
    induction hr with
    | refl => exact fun _ => rfl
    | tail _ hs ih =>
      obtain ⟨zs, hs⟩ := hs
      exact fun ys => (ih ys).trans ((sameConfig_setTimes _ _ _ hs).setTimes_eq ys)
  rw [this ys, hv] at hw
  simp only [Except.ok.injEq] at hw
  rw [hw]

/-- **C10 (partial)** A used `OversamplingMTF` that gets new times with the *same number of steps* still
computes the right thing, because its matrix only depends on the number of steps.  Missing: a different
number of steps (violated below), and matrices that depend on the step widths. -/
theorem c10_oversampling_same_steps_partial (b : Base K) (o : Option K) (ys zs : List K) (t u v w : TF K c)
    (p x : Pulse K c) (hl : zs.length = ys.length)
    (ht : (TF.matrix b o (oversamplingTensor c) none).setTimes ys = .ok t) (hu : t.call p = .ok (u, x))
    (hv : u.setTimes zs = .ok v)
    (hw : (TF.matrix b o (oversamplingTensor c) none).setTimes zs = .ok w) (y : Pulse K c) :
    v.run y = w.run y := by
  simp only [TF.setTimes] at ht hw
  obtain ⟨b1, hb1, ht⟩ := bind_ok ht
  obtain ⟨b2, hb2, hw⟩ := bind_ok hw
  simp only [pure, Except.pure, Except.ok.injEq] at ht hw
  subst ht; subst hw
  simp only [call, bind, Except.bind, pure, Except.pure] at hu
  split at hu
  · simp at hu
  · split at hu
    · simp at hu
    · rename_i T hT
      split at hu
      · simp at hu
      · simp only [Except.ok.injEq, Prod.mk.injEq] at hu
        obtain ⟨rfl, -⟩ := hu
        simp only [TF.setTimes] at hv
        rw [base_setTimes_congr (setTimes_base hb1).1 (setTimes_base hb1).2, hb2] at hv
        simp only [bind, Except.bind, pure, Except.pure, Except.ok.injEq] at hv
        subst hv
        have : oversamplingTensor c b2 = .ok T := by
          rw [← hT]
          simp only [getMatrix, oversamplingTensor, Base.numPadding]
          obtain ⟨_, _, _, _, _, n1, _⟩ := c01_grid_length _ _ _ hb1
          obtain ⟨_, _, _, _, _, n2, _⟩ := c01_grid_length _ _ _ hb2
          rw [(setTimes_base hb1).1, (setTimes_base hb1).2, (setTimes_base hb2).1,
            (setTimes_base hb2).2, n1, n2, hl]
        rw [run_matrix, run_matrix]
        simp only [getMatrix, this]

/-- **C10 violated**: an `OversamplingMTF` used on two steps and then configured for three steps raises
`ValueError` in the next call, while an unused object returns the pulse. -/
theorem c10_violated_error :
    ∃ (t u v w : TF ℚ 1) (p x q : Pulse ℚ 1),
      (TF.matrix (Base.init ℚ none 1) (some 0) (oversamplingTensor 1) none).setTimes [1, 1] = .ok t ∧
      t.call p = .ok (u, x) ∧ u.setTimes [1, 1, 1] = .ok v ∧
      (TF.matrix (Base.init ℚ none 1) (some 0) (oversamplingTensor 1) none).setTimes [1, 1, 1] = .ok w ∧
      v.run q = .error .valueError ∧ ∃ z, w.run q = .ok z ∧ z.length = 3 :=
  ⟨_, _, _, _, [fun _ => 1, fun _ => 1], _, [fun _ => 1, fun _ => 2, fun _ => 3], rfl, rfl, rfl, rfl, rfl,
    _, rfl, rfl⟩

/-- **C10 violated** silently: an `OversamplingMTF` used on one step and then configured for two steps adds up the two rows of the
next pulse, because numpy repeats the single column of the old matrix.  The result has one row, not two, and the gradient has one
row for a pulse of two. -/
theorem c10_violated_one_step :
    ∃ (t u v w : TF ℚ 1) (x : Pulse ℚ 1),
      (TF.matrix (Base.init ℚ none 1) (some 0) (oversamplingTensor 1) none).setTimes [1] = .ok t ∧
      t.call [fun _ => 1] = .ok (u, x) ∧ u.setTimes [1, 1] = .ok v ∧
      (TF.matrix (Base.init ℚ none 1) (some 0) (oversamplingTensor 1) none).setTimes [1, 1] = .ok w ∧
      (∃ z, v.run [fun _ => 3, fun _ => 4] = .ok z ∧ z.length = 1 ∧ rowAt z 0 0 = 7) ∧
      (∃ z, w.run [fun _ => 3, fun _ => 4] = .ok z ∧ z.length = 2 ∧ rowAt z 0 0 = 3 ∧ rowAt z 1 0 = 4) ∧
      ∃ h : Grads ℚ 1 1, v.back [fun _ _ => 1, fun _ _ => 1] = .ok h ∧ h.length = 1 := by
  refine ⟨_, _, _, _, _, rfl, rfl, rfl, rfl, ⟨_, rfl, rfl, ?_⟩, ⟨_, rfl, rfl, ?_, ?_⟩, ⟨_, rfl, rfl⟩⟩ <;>
    norm_num [rowAt, addOffset, Finset.sum_range_succ, Tensor.ofRows, npEye, npRepeat, npZeros, List.range_succ, Base.init,
      List.replicate]

/-- **C10 violated**: `FollowsGrid` is false for an `OversamplingMTF`. -/
theorem c10_violated :
    ¬ FollowsGrid (TF.matrix (Base.init ℚ none 1) (some 0) (oversamplingTensor 1) none : TF ℚ 1) := by
  intro h
  obtain ⟨t, u, v, w, p, x, q, h1, h2, h3, h4, h5, z, h6, -⟩ := c10_violated_error
  have := h u v w [1, 1, 1] q
    ((Relation.ReflTransGen.single (.setTimes _ h1)).tail (.call _ _ h2)) h4 h3
  rw [h5, h6] at this
  simp at this

/-- Non-vacuity of the partial theorems: a used nested object without matrices. -/
example : NoMatrix (TF.concat (Base.init ℚ none 2) (TF.identity (Base.init ℚ none 1))
    (TF.oversampling (Base.init ℚ none 2)) : TF ℚ 1) := ⟨trivial, trivial⟩

end
end Verif.Transfer
